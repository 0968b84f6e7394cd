import Verif.Props.LevmarChi
import Mathlib.LinearAlgebra.Matrix.Rank

/-!
# C48: what levmar returns
-/

set_option linter.unusedSectionVars false
namespace Npplus
open Npplus.Spec

namespace Spec
variable {K : Type} [Field K] [LinearOrder K]

/-- element of a list of rows -/
def ent (m : List (List K)) (i j : ℕ) : K := (m.getD i []).getD j 0

/-- `inv` inverts: whatever it returns for a square matrix is square of the same size and a right inverse. -/
def InvOK (inv : List (List K) → Except PyErr (List (List K))) : Prop :=
  ∀ a b, inv a = .ok b → (∀ r ∈ a, r.length = a.length) → b.length = a.length ∧ (∀ r ∈ b, r.length = a.length) ∧
    ∀ i < a.length, ∀ j < a.length, ∑ k ∈ Finset.range a.length, ent a i k * ent b k j = if i = j then 1 else 0

/-- The derivatives yielded by a generator function: `D q` has one row of `N` values for each parameter. -/
def PureD (F : UserF K) (D : List K → List (List K)) (N : ℕ) : Prop :=
  (∀ log q, F.dval log q = .ok (D q)) ∧ ∀ q, ∀ r ∈ D q, r.length = N

/-- `G i t` are the derivatives of datum `t` by the free parameters `i` at `q`, as documented: those the generator
yields, or one-sided difference quotients with step `maximum(prel*|q_i|, pabs)` (up to its sign). -/
def GradAt (A : LmArgs K) (F : UserF K) (V : List K → List K) (D : List K → List (List K)) (q : List K)
    (G : ℕ → ℕ → K) : Prop :=
  (F.isgen = true → ∀ i t, G i t = ent (D q) i t) ∧
  (F.isgen = false → ∀ i < A.p0.length, ¬ Fixed A i → ∃ d s : K, d ≠ 0 ∧ (d = s ∨ d = -s) ∧
    s = max (elem1 (A.prel.getD [A.cfg.prel]) i * |q.getD i 0|) (elem1 (A.pabs.getD [A.cfg.pabs]) i) ∧
    ∀ t < A.data.length, G i t = ((V (q.set i (q.getD i 0 + d))).getD t 0 - (V q).getD t 0) / d)

/-- element of the normal matrix: `sum_t G_i G_j / errs**2` -/
def normalAt (A : LmArgs K) (G : ℕ → ℕ → K) (i j : ℕ) : K :=
  ∑ t ∈ Finset.range A.data.length, G i t * G j t / elem1 A.errs t ^ 2

end Spec

variable {K : Type} [Field K] [LinearOrder K] [IsStrictOrderedRing K]

/-- A sum of terms that vanish for the indices not selected. -/
theorem sum_freeIdx (m : List Bool) : ∀ (g : ℕ → K), (∀ i < m.length, m.getD i true = false → g i = 0) →
    ∑ i ∈ Finset.range m.length, g i = ∑ k ∈ Finset.range (freeIdx m).length, g ((freeIdx m).getD k 0) := by
  induction m with
  | nil => intro g _; rfl
  | cons b m ih =>
    intro g hg
    have h := ih (fun i => g (i + 1)) fun i hi h0 => hg (i + 1) (by simpa using hi) (by simpa using h0)
    rw [List.length_cons, Finset.sum_range_succ', h]
    cases b with
    | false =>
      rw [hg 0 (by simp) (by simp), add_zero]
      have hl : (freeIdx (false :: m)).length = (freeIdx m).length := by rw [freeIdx_cons]; simp
      rw [hl]
      refine Finset.sum_congr rfl fun k hk => ?_
      rw [freeIdx_getD_cons_false (by simpa using hk)]
    | true =>
      have hl : (freeIdx (true :: m)).length = (freeIdx m).length + 1 := by rw [freeIdx_cons]; simp
      rw [hl, Finset.sum_range_succ']
      congr 1
      · refine Finset.sum_congr rfl fun k hk => ?_
        rw [freeIdx_getD_cons_succ (by simpa using hk)]
      · rw [freeIdx_cons]; simp

theorem getD_false_of_true {m : List Bool} {i : ℕ} (hi : i < m.length) : (m.getD i true = false) ↔ ¬ m.getD i false = true := by
  rw [List.getD_eq_getElem _ _ hi, List.getD_eq_getElem _ _ hi]
  simp

/-- `k`-th free index of a free parameter -/
theorem exists_freeIdx {m : List Bool} {i : ℕ} (hi : i < m.length) (h : ¬ m.getD i true = false) :
    ∃ k < (freeIdx m).length, (freeIdx m).getD k 0 = i := by
  have : i ∈ freeIdx m := mem_freeIdx.2 ⟨hi, by rw [getD_false_of_true hi] at h; simpa using h⟩
  obtain ⟨k, hk, he⟩ := List.mem_iff_getElem.1 this
  exact ⟨k, hk, by rw [List.getD_eq_getElem _ _ hk, he]⟩

theorem freeIdx_nodup (m : List Bool) : (freeIdx m).Nodup := List.Nodup.filter _ List.nodup_range

theorem freeIdx_inj {m : List Bool} {k l : ℕ} (hk : k < (freeIdx m).length) (hl : l < (freeIdx m).length)
    (h : (freeIdx m).getD k 0 = (freeIdx m).getD l 0) : k = l := by
  rw [List.getD_eq_getElem _ _ hk, List.getD_eq_getElem _ _ hl] at h
  exact (freeIdx_nodup m).getElem_inj_iff.1 h

section
variable {A : LmArgs K} {F : UserF K} {solve : List (List K) → List K → Except PyErr (List K)} {E : LmEnv K}
  {V : List K → List K} {D : List K → List (List K)}

theorem Tri.self {α : Type} (m : Run K α) : Tri (fun _ => True) m (fun a => ∃ log, (m log).1 = .ok a) :=
  fun log _ => ⟨fun _ _ => trivial, fun _ ha => ⟨log, ha⟩⟩

/-- the rows of derivatives the program computed at the free parameters `p` -/
def RowsAt (E : LmEnv K) (p : List K) (rows : List (List K)) : Prop :=
  (E.F.isgen = true ∧ ∃ log d, E.F.dval log (E.full p) = .ok d ∧ d.length = E.pmask.length ∧ rows = maskGet E.pmask d) ∨
  (E.F.isgen = false ∧ ∃ log log' f0, E.F.val log' (E.full p) = .ok f0 ∧
    (numericalPartials E.F (E.full p) f0 E.pmin E.pmax E.prel E.pabs E.pmask log).1 = .ok rows)

theorem g_rows (p : List K) : Tri (fun _ => True) (E.g p) (fun gv => RowsAt E p gv.2) := by
  unfold LmEnv.g
  refine Tri.ite (fun hg => ?_) fun hg => ?_
  · refine Tri.bind (Tri.callGen trivial) fun r hr => ?_
    obtain ⟨log, h1, h2⟩ := hr
    refine Tri.ite (fun _ => Tri.fail) fun hl => Tri.ret (Or.inl ⟨hg, log, r.2, h2, not_not.1 hl, rfl⟩)
  · refine Tri.bind (Tri.call trivial) fun f0 hf0 => ?_
    refine Tri.bind (Tri.self _) fun rows hr => Tri.ret (Or.inr ⟨by simpa using hg, ?_⟩)
    obtain ⟨log', h1⟩ := hf0
    obtain ⟨log, h2⟩ := hr
    exact ⟨log, log', f0, h1, h2⟩

/-- `alpha` was computed from the derivatives at the head of the path. -/
def AlphaOK (E : LmEnv K) (st : LmState K) : Prop :=
  ∃ p rows beta bt l, p.length = E.pmask.countP id ∧ st.path = E.full p :: l ∧ RowsAt E p rows ∧
    normalEqs E.F.isgen E.wgt beta rows = .ok (bt, st.alpha)

theorem outer_alpha (hE : EnvOK E) (inFuel : ℕ) : ∀ fuel st, st.p.length = E.pmask.countP id →
    Tri (fun _ => True) (E.outer inFuel fuel st) (AlphaOK E)
  | 0, st, _ => Tri.fail
  | fuel + 1, st, hst => by
    unfold LmEnv.outer
    refine Tri.bind (Tri.and (g_tri hE (lmInv_true hE) hst) (g_rows st.p)) fun gv hgv => ?_
    refine Tri.bind (P := fun _ => True) (Tri.lift fun _ _ => trivial) fun dm _ => ?_
    refine Tri.bind (P := fun _ => True) (Tri.lift fun _ _ => trivial) fun beta _ => ?_
    refine Tri.bind (P := fun _ => True) (Tri.lift fun _ _ => trivial) fun c _ => ?_
    refine Tri.bind (P := fun ba => normalEqs E.F.isgen E.wgt beta gv.2 = .ok ba) (Tri.lift fun _ h => h) fun ba hba => ?_
    have hl : ba.1.length = E.pmask.countP id := by rw [← (normalEqs_ok hba).1.length_eq, hgv.1.1]
    have key : AlphaOK E { st with path := E.full st.p :: st.path, alpha := ba.2 } :=
      ⟨st.p, gv.2, beta, ba.1, st.path, hst, rfl, hgv.2, hba⟩
    refine Tri.ite (fun _ => Tri.ret key) fun _ => ?_
    refine Tri.bind (inner_tri hE (lmInv_true hE) hst hl _ _) fun r hr => ?_
    refine Tri.ite (fun _ => Tri.ret key) fun _ => Tri.ite (fun _ => Tri.ret key) fun _ => ?_
    exact outer_alpha hE inFuel fuel _ hr

/-- The derivatives in terms of the arguments. -/
theorem rows_grad (h : EnvOf A F solve E) (hs : SolveLen solve) (hV : PureF F V A.data.length) (hD : F.isgen = true → PureD F D A.data.length)
    {p : List K} {rows : List (List K)} (hp : p.length = E.pmask.countP id) (hr : RowsAt E p rows) :
    rows.length = (freeIdx E.pmask).length ∧ (∀ r ∈ rows, r.length = A.data.length) ∧
      ∃ G, GradAt A F V D (E.full p) G ∧
        ∀ k < rows.length, ∀ t < A.data.length, ent rows k t = G ((freeIdx E.pmask).getD k 0) t := by
  have hE := h.ok hs
  rcases hr with ⟨hg, log, d, h1, h2, h3⟩ | ⟨hg, log, log', f0, h1, h2⟩
  · rw [h.F] at hg h1
    have hD := hD hg
    rw [hD.1] at h1
    have h1 := Except.ok.inj h1
    have hrl : rows.length = (freeIdx E.pmask).length := by
      rw [h3, maskGet_length _ _ h2.symm, freeIdx_length]
    refine ⟨hrl, fun r hr => ?_, fun i t => ent (D (E.full p)) i t, ⟨fun _ _ _ => rfl, fun hf => by rw [hg] at hf; cases hf⟩, ?_⟩
    · rw [h3] at hr
      refine hD.2 (E.full p) r ?_
      rw [h1]; exact maskGet_subset _ _ _ hr
    · intro k hk t ht
      rw [hrl] at hk
      unfold ent
      rw [h3, maskGet_getD [] _ _ h2.symm k hk, h1]
  · rw [h.F] at hg h1 h2
    rw [hV.1] at h1
    have h1 := Except.ok.inj h1
    subst h1
    obtain ⟨hl, hq⟩ := C47_quotients hV (by rw [hE.prel, E.full_length]) (by rw [hE.pabs, E.full_length])
      (by rw [hE.mask, E.full_length]) (by rw [freeIdx_length]; exact hE.pmax) h2
    refine ⟨hl, fun r hr => ?_, ?_⟩
    · obtain ⟨k, hk, rfl⟩ := List.mem_iff_getElem.1 hr
      obtain ⟨d, -, hlen, -⟩ := hq k hk _ rfl
      rw [List.getD_eq_getElem _ _ hk] at hlen
      exact hlen
    · classical
      -- the row of parameter `i`
      refine ⟨fun i t => ent rows ((freeIdx E.pmask).idxOf i) t, ⟨fun hf => (by rw [hg] at hf; cases hf), fun _ i hi hfix => ?_⟩, ?_⟩
      · have hm : ¬ E.pmask.getD i true = false := fun h0 => hfix ((h.mask i hi).1 h0)
        obtain ⟨k, hk, hki⟩ := exists_freeIdx (by rw [h.mask_len]; exact hi) hm
        have hidx : (freeIdx E.pmask).idxOf i = k := by
          rw [← hki, List.getD_eq_getElem _ _ hk]
          exact (freeIdx_nodup _).idxOf_getElem k hk
        obtain ⟨d, hd, -, hquo, hs1, hs2⟩ := hq k (by rw [hl]; exact hk) i hki.symm
        refine ⟨d, stepSize E.prel E.pabs (E.full p) i, hd, ?_, ?_, fun t ht => ?_⟩
        · by_cases hc : ∃ b, E.pmax = some b ∧ b.getD k 0 < (E.full p).getD i 0 + stepSize E.prel E.pabs (E.full p) i
          · obtain ⟨b, hb, hlt⟩ := hc
            exact Or.inr (hs1 b hb hlt)
          · push Not at hc
            exact Or.inl (hs2 hc)
        · unfold stepSize
          rw [(bcast1_ok h.prel).2 i hi, (bcast1_ok h.pabs).2 i hi]
        · beta_reduce; rw [hidx]; exact hquo t ht
      · intro k hk t ht
        rw [hl] at hk
        have hidx : (freeIdx E.pmask).idxOf ((freeIdx E.pmask).getD k 0) = k := by
          rw [List.getD_eq_getElem _ _ hk]
          exact (freeIdx_nodup _).idxOf_getElem k hk
        beta_reduce
        rw [hidx]

/-- The matrix `alpha`. -/
theorem alpha_eq (h : EnvOf A F solve E) {isgen : Bool} {beta bt : List K} {rows al : List (List K)}
    (hn : normalEqs isgen E.wgt beta rows = .ok (bt, al)) (hr : ∀ r ∈ rows, r.length = A.data.length) :
    al.length = rows.length ∧ (∀ r ∈ al, r.length = rows.length) ∧ ∀ i < rows.length, ∀ j < rows.length,
      ent al i j = ∑ t ∈ Finset.range A.data.length, ent rows i t * ent rows j t / elem1 A.errs t ^ 2 := by
  obtain ⟨-, wr, h1, h2⟩ := normalEqs_ok hn
  simp only at h2
  have l1 := h1.length_eq
  have l2 := h2.length_eq
  rw [forall2_getD [] []] at h1 h2
  refine ⟨by omega, fun r hrm => ?_, fun i hi j hj => ?_⟩
  · obtain ⟨i, hi, rfl⟩ := List.mem_iff_getElem.1 hrm
    have := (h2.2 i (by omega)).length_eq
    rw [List.getD_eq_getElem al _ hi] at this
    exact this.symm
  · have hrl : ∀ i < rows.length, (rows.getD i []).length = A.data.length := fun i hi => by
      rw [List.getD_eq_getElem _ _ hi]; exact hr _ (List.getElem_mem hi)
    have e1 := bzip_length (h1.2 i hi) (by rw [h.wgt.1, hrl i hi])
    have h3 := h2.2 i (by omega)
    rw [forall2_getD [] 0] at h3
    have h4 := h3.2 j hj
    unfold dot1 at h4
    have lw : (wr.getD i []).length = A.data.length := by rw [e1, List.length_zipWith, h.wgt.1, hrl i hi, min_self]
    rw [if_pos (by rw [lw, hrl j hj])] at h4
    unfold ent
    rw [← Except.ok.inj h4, zipWith_sum _ _ _ (by rw [lw, hrl j hj]), lw]
    refine Finset.sum_congr rfl fun t ht => ?_
    rw [Finset.mem_range] at ht
    rw [e1, getD_zipWith2 _ _ _ t 0 0 _ (by rw [h.wgt.1]; exact ht) (by rw [hrl i hi]; exact ht), h.wgt.2 t ht]
    ring

/-- What is known of a result, before it is expressed in terms of the arguments. -/
structure CovOK (A : LmArgs K) (F : UserF K) (V : List K → List K) (D : List K → List (List K)) (m : List Bool)
    (r : LmFit K) : Prop where
  ndof : r.ndof = (A.data.length : ℤ) - ((freeIdx m).length : ℤ)
  fixed : ∀ i j, i < A.p0.length → j < A.p0.length → (m.getD i true = false ∨ m.getD j true = false) → ent r.pcov i j = 0
  shape : r.pcov.length = A.p0.length ∧ ∀ row ∈ r.pcov, row.length = A.p0.length
  grad : ∃ q l al ai G, r.path = q :: l ∧ GradAt A F V D q G ∧ al.length = (freeIdx m).length ∧
    (∀ row ∈ al, row.length = al.length) ∧ ai.length = (freeIdx m).length ∧
    (∀ k < al.length, ∀ l < al.length, ent al k l = normalAt A G ((freeIdx m).getD k 0) ((freeIdx m).getD l 0)) ∧
    (∀ k < al.length, ∀ l < al.length, ent r.pcov ((freeIdx m).getD k 0) ((freeIdx m).getD l 0) = ent ai k l) ∧
    ∀ i < al.length, ∀ j < al.length, ∑ k ∈ Finset.range al.length, ent al i k * ent ai k j = if i = j then 1 else 0

theorem levmar_cov (hs : SolveLen solve) (hV : PureF F V A.data.length) (hD : F.isgen = true → PureD F D A.data.length)
    {inv : List (List K) → Except PyErr (List (List K))} (hinv : InvOK inv) {fo fi : ℕ} {r : LmFit K}
    (hr : (levmar A F solve inv fo fi).1 = .ok r) :
    ∃ m : List Bool, m.length = A.p0.length ∧ (∀ i < A.p0.length, (m.getD i true = false ↔ Fixed A i)) ∧ CovOK A F V D m r := by
  refine levmar_post (Q := fun r => ∃ m : List Bool, m.length = A.p0.length ∧
    (∀ i < A.p0.length, (m.getD i true = false ↔ Fixed A i)) ∧ CovOK A F V D m r) (fun E hE => ?_) hr
  have h := env_ok hE
  have hok := h.ok hs
  refine ⟨AlphaOK E, outer_alpha hok fi fo E.init (maskGet_length _ _ (by rw [h.mask_len, h.p0])), fun st r hst hfin => ?_⟩
  obtain ⟨p, rows, beta, bt, l, hp, hpath, hrows, hn⟩ := hst
  obtain ⟨hrl, hrt, G, hG, hGr⟩ := rows_grad h hs hV hD hp hrows
  obtain ⟨hal, halr, hale⟩ := alpha_eq h hn hrt
  refine ⟨E.pmask, h.mask_len, h.mask, ?_⟩
  unfold LmEnv.finish at hfin
  simp only [bind, Except.bind, pure, Except.pure] at hfin
  split at hfin
  · cases hfin
  rename_i ai hai
  have hfin := Except.ok.inj hfin
  obtain ⟨hi1, hi2, hi3⟩ := hinv _ _ hai (by rw [hal]; exact halr)
  set np := E.p0.length with hnp
  have hnpA : np = A.p0.length := by rw [hnp, h.p0]
  have hm : E.pmask.length = np := by rw [h.mask_len, hnpA]
  set zrow : List K := List.replicate np 0 with hz
  set pc := ai.map fun row => maskSet E.pmask row zrow with hpc
  have hpcl : pc.length = E.pmask.countP id := by rw [hpc, List.length_map, hi1, hal, hrl, freeIdx_length]
  have hcov : r.pcov = maskSet E.pmask pc (List.replicate np zrow) := by rw [← hfin]
  have hzr : ∀ j, zrow.getD j 0 = 0 := fun j => by
    rw [hz, List.getD_eq_getElem?_getD, List.getElem?_replicate]
    split_ifs <;> rfl
  have hfixrow : ∀ i < np, E.pmask.getD i true = false → r.pcov.getD i [] = zrow := fun i hi h0 => by
    rw [hcov, maskSet_false _ _ _ _ _ h0, List.getD_eq_getElem _ _ (by simpa using hi)]
    simp
  have hfreerow : ∀ k < (freeIdx E.pmask).length, r.pcov.getD ((freeIdx E.pmask).getD k 0) [] =
      maskSet E.pmask (ai.getD k []) zrow := fun k hk => by
    have hka : k < ai.length := by rw [hi1, hal, hrl]; exact hk
    rw [hcov, maskSet_getD_free [] _ _ _ (by simpa using hm) hpcl k hk,
      List.getD_eq_getElem _ _ (by rw [hpc, List.length_map]; exact hka), List.getD_eq_getElem _ _ hka, List.getElem_map]
  refine ⟨?_, ?_, ?_, E.full p, l, st.alpha, ai, G, by rw [← hfin]; exact hpath, hG, by rw [hal, hrl], by rw [hal]; exact halr,
    by rw [hi1, hal, hrl], ?_, ?_, hi3⟩
  · rw [← hfin, freeIdx_length]; simp only; rw [h.data]
  · intro i j hi hj hor
    rw [← hnpA] at hi hj
    unfold ent
    by_cases h0 : E.pmask.getD i true = false
    · rw [hfixrow i hi h0]; exact hzr j
    · rcases hor with h1 | h1
      · exact absurd h1 h0
      · obtain ⟨k, hk, hki⟩ := exists_freeIdx (by rw [hm]; exact hi) h0
        rw [← hki, hfreerow k hk, maskSet_false _ _ _ _ _ h1]; exact hzr j
  · have hlen : r.pcov.length = np := by rw [hcov, maskSet_length]; simp
    refine ⟨by rw [hlen, hnpA], fun row hrow => ?_⟩
    obtain ⟨i, hi, rfl⟩ := List.mem_iff_getElem.1 hrow
    rw [hlen] at hi
    rw [← List.getD_eq_getElem _ [] , ← hnpA]
    by_cases h0 : E.pmask.getD i true = false
    · rw [hfixrow i hi h0, hz]; simp
    · obtain ⟨k, hk, hki⟩ := exists_freeIdx (by rw [hm]; exact hi) h0
      rw [← hki, hfreerow k hk, maskSet_length, hz]; simp
  · intro k hk j hj
    rw [hal] at hk hj
    rw [hale k hk j hj]
    unfold normalAt
    refine Finset.sum_congr rfl fun t ht => ?_
    rw [Finset.mem_range] at ht
    rw [hGr k hk t ht, hGr j hj t ht]
  · intro k hk j hj
    rw [hal, hrl] at hk hj
    unfold ent
    have hka : k < ai.length := by rw [hi1, hal, hrl]; exact hk
    have hrow : (ai.getD k []).length = E.pmask.countP id := by
      rw [List.getD_eq_getElem _ _ hka, hi2 _ (List.getElem_mem hka), hal, hrl, freeIdx_length]
    rw [hfreerow k hk, maskSet_getD_free 0 _ _ _ (by rw [hz]; simpa using hm) hrow j hj]

/-- **C48**, the covariance matrix.  It is square with one row per parameter and has zero rows and columns for the
fixed parameters; restricted to the free ones it is the inverse of the normal matrix
`N_ij = sum_t df_t/dp_i df_t/dp_j / errs_t**2` at the last point `q` where the gradient was computed (`q` is the head of
`path`; derivatives by finite differences if `f` is not a generator). -/
theorem C48_pcov (hs : SolveLen solve) (hV : PureF F V A.data.length) (hD : F.isgen = true → PureD F D A.data.length)
    {inv : List (List K) → Except PyErr (List (List K))} (hinv : InvOK inv) {fo fi : ℕ} {r : LmFit K}
    (hr : (levmar A F solve inv fo fi).1 = .ok r) :
    (r.pcov.length = A.p0.length ∧ ∀ row ∈ r.pcov, row.length = A.p0.length) ∧
    (∀ i j, i < A.p0.length → j < A.p0.length → Fixed A i ∨ Fixed A j → ent r.pcov i j = 0) ∧
    ∃ q G, r.path.head? = some q ∧ GradAt A F V D q G ∧ ∀ i j, i < A.p0.length → j < A.p0.length → ¬ Fixed A i → ¬ Fixed A j →
      ∑ k ∈ Finset.range A.p0.length, normalAt A G i k * ent r.pcov k j = if i = j then 1 else 0 := by
  obtain ⟨m, hml, hmf, h⟩ := levmar_cov hs hV hD hinv hr
  refine ⟨h.shape, fun i j hi hj hor => h.fixed i j hi hj ?_, ?_⟩
  · rw [hmf i hi, hmf j hj]; exact hor
  obtain ⟨q, l, al, ai, G, hpath, hG, hal, halr, hail, hale, haie, hprod⟩ := h.grad
  refine ⟨q, G, by rw [hpath]; rfl, hG, fun i j hi hj hfi hfj => ?_⟩
  obtain ⟨a, ha, hai⟩ := exists_freeIdx (m := m) (by rw [hml]; exact hi) (fun h0 => hfi ((hmf i hi).1 h0))
  obtain ⟨b, hb, hbj⟩ := exists_freeIdx (m := m) (by rw [hml]; exact hj) (fun h0 => hfj ((hmf j hj).1 h0))
  rw [← hml, sum_freeIdx m (fun k => normalAt A G i k * ent r.pcov k j)]
  · rw [← hal] at ha hb ⊢
    have := hprod a ha b hb
    have e : (a = b) = (i = j) := by
      refine propext ⟨fun h => ?_, fun h => ?_⟩
      · rw [← hai, ← hbj, h]
      · exact freeIdx_inj (by rw [← hal]; exact ha) (by rw [← hal]; exact hb) (by rw [hai, hbj, h])
    simp only [e] at this
    rw [← this]
    refine Finset.sum_congr rfl fun k hk => ?_
    rw [Finset.mem_range] at hk
    rw [hale a ha k hk, ← haie k hk b hb, hai, hbj]
  · intro k hk h0
    rw [h.fixed k j (by rw [← hml]; exact hk) hj (Or.inl h0), mul_zero]

open Classical in
/-- **C48**, degrees of freedom: the number of data minus the number of parameters that are not fixed. -/
theorem C48_ndof (hs : SolveLen solve) (hV : PureF F V A.data.length) (hD : F.isgen = true → PureD F D A.data.length)
    {inv : List (List K) → Except PyErr (List (List K))} (hinv : InvOK inv) {fo fi : ℕ} {r : LmFit K}
    (hr : (levmar A F solve inv fo fi).1 = .ok r) :
    r.ndof = (A.data.length : ℤ) - (((Finset.range A.p0.length).filter fun i => ¬ Fixed A i).card : ℤ) := by
  obtain ⟨m, hml, hmf, h⟩ := levmar_cov hs hV hD hinv hr
  rw [h.ndof]
  have : (freeIdx m).toFinset = (Finset.range A.p0.length).filter fun i => ¬ Fixed A i := by
    ext i
    rw [List.mem_toFinset, mem_freeIdx, Finset.mem_filter, Finset.mem_range, hml]
    refine and_congr_right fun hi => ?_
    rw [← hmf i hi, getD_false_of_true (by rw [hml]; exact hi), not_not]
  rw [← this, List.toFinset_card_of_nodup (freeIdx_nodup m)]

/-- **C48**, fewer data than free parameters: levmar cannot return (although the check at the start of levmar does not
raise, the normal matrix has no inverse), so `ndof` is never negative. -/
theorem C48_fewer_data (hs : SolveLen solve) (hV : PureF F V A.data.length) (hD : F.isgen = true → PureD F D A.data.length)
    {inv : List (List K) → Except PyErr (List (List K))} (hinv : InvOK inv) {fo fi : ℕ} {r : LmFit K}
    (hr : (levmar A F solve inv fo fi).1 = .ok r) : 0 ≤ r.ndof := by
  obtain ⟨m, hml, hmf, h⟩ := levmar_cov hs hV hD hinv hr
  obtain ⟨q, l, al, ai, G, hpath, hG, hal, halr, hail, hale, haie, hprod⟩ := h.grad
  by_contra hneg
  rw [h.ndof] at hneg
  set n := al.length
  set N := A.data.length
  have hlt : N < n := by omega
  let D' : Matrix (Fin n) (Fin N) K := fun i t => G ((freeIdx m).getD i 0) t
  let W : Matrix (Fin N) (Fin n) K := fun t j => G ((freeIdx m).getD j 0) t / elem1 A.errs t ^ 2
  let B : Matrix (Fin n) (Fin n) K := fun i j => ent ai i j
  have hAB : D' * W * B = 1 := by
    ext i j
    rw [Matrix.mul_apply, Matrix.one_apply]
    have := hprod i i.2 j j.2
    rw [← Fin.sum_univ_eq_sum_range (fun k => ent al i k * ent ai k j)] at this
    simp only [Fin.val_inj] at this
    rw [← this]
    refine Finset.sum_congr rfl fun k _ => ?_
    rw [hale i i.2 k k.2, Matrix.mul_apply]
    unfold normalAt
    rw [← Fin.sum_univ_eq_sum_range (fun t => G ((freeIdx m).getD i 0) t * G ((freeIdx m).getD k 0) t / elem1 A.errs t ^ 2)]
    congr 1
    refine Finset.sum_congr rfl fun t _ => ?_
    simp only [D', W]; ring
  have h1 : (1 : Matrix (Fin n) (Fin n) K).rank ≤ N := by
    rw [← hAB, Matrix.mul_assoc]
    exact (Matrix.rank_mul_le_left _ _).trans (by simpa using Matrix.rank_le_width D')
  rw [Matrix.rank_one] at h1
  simp at h1
  omega

end
end Npplus
