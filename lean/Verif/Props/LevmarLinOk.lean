import Verif.Props.LevmarLin
import Mathlib.LinearAlgebra.Matrix.ToLinearEquiv
import Mathlib.LinearAlgebra.Matrix.NonsingularInverse

/-!
# C112: levmar succeeds on every well posed linear model
-/

set_option linter.unusedSectionVars false
namespace Npplus
open Npplus.Spec

namespace Spec
variable {K : Type} [Field K] [LinearOrder K]

/-- a non-singular matrix: only the zero vector is mapped to zero -/
def NonSing (M : List (List K)) : Prop :=
  ∀ x : ℕ → K, (∀ i < M.length, ∑ k ∈ Finset.range M.length, ent M i k * x k = 0) → ∀ k < M.length, x k = 0

/-- `solve` returns something for every non-singular square matrix -/
def SolveTotal (solve : List (List K) → List K → Except PyErr (List K)) : Prop :=
  ∀ M b, (∀ r ∈ M, r.length = M.length) → b.length = M.length → NonSing M → ∃ x, solve M b = .ok x

/-- `inv` returns something for every non-singular square matrix -/
def InvTotal (inv : List (List K) → Except PyErr (List (List K))) : Prop :=
  ∀ M, (∀ r ∈ M, r.length = M.length) → NonSing M → ∃ N, inv M = .ok N

/-- The arguments fit together: `errs`, `prel` and `pabs` have one element or the right number, no error is zero, `pfix` contains indices of
parameters, some parameter is free, every free parameter affects the data, and (for finite differences) the absolute steps are positive. -/
structure WellPosed (A : LmArgs K) (F : UserF K) (D : List K → List (List K)) (B : ℕ → ℕ → K) : Prop where
  errs : A.errs.length = 1 ∨ A.errs.length = A.data.length
  errs0 : ∀ t < A.data.length, elem1 A.errs t ≠ 0
  prel : (A.prel.getD [A.cfg.prel]).length = 1 ∨ (A.prel.getD [A.cfg.prel]).length = A.p0.length
  pabs : (A.pabs.getD [A.cfg.pabs]).length = 1 ∨ (A.pabs.getD [A.cfg.pabs]).length = A.p0.length
  pabs0 : F.isgen = false → ∀ i < A.p0.length, 0 < elem1 (A.pabs.getD [A.cfg.pabs]) i
  pfix : ∀ l, A.pfix = some l → ∀ k ∈ l, -(A.p0.length : ℤ) ≤ k ∧ k < A.p0.length
  free : ∃ i < A.p0.length, ¬ Fixed A i
  cols : ∀ i < A.p0.length, ¬ Fixed A i → ∃ t < A.data.length, B i t ≠ 0
  gen : F.isgen = true → ∀ q, (D q).length = A.p0.length

/-- the effects of the free parameters on the data are linearly independent: no change of the free parameters but zero leaves the model unchanged -/
def IndependentCols (A : LmArgs K) (B : ℕ → ℕ → K) : Prop :=
  ∀ u : ℕ → K, (∀ i < A.p0.length, Fixed A i → u i = 0) → (∀ t < A.data.length, ∑ i ∈ Finset.range A.p0.length, B i t * u i = 0) →
    ∀ i < A.p0.length, u i = 0

end Spec

variable {K : Type} [Field K] [LinearOrder K] [IsStrictOrderedRing K]

namespace LinAux

section
variable {α β : Type}

/-- `m` returns, and its value satisfies `Q` -/
def Succ (m : Run K α) (Q : α → Prop) : Prop := ∀ log, ∃ a log', m log = (.ok a, log') ∧ Q a

theorem Succ.ret {Q : α → Prop} {a : α} (h : Q a) : Succ (Run.ret a : Run K α) Q := fun log => ⟨a, log, rfl, h⟩

theorem Succ.bind {P : α → Prop} {Q : β → Prop} {m : Run K α} {k : α → Run K β} (hm : Succ m P) (hk : ∀ a, P a → Succ (k a) Q) :
    Succ (m >>= k) Q := by
  intro log
  obtain ⟨a, log', h1, h2⟩ := hm log
  obtain ⟨b, log'', h3, h4⟩ := hk a h2 log'
  refine ⟨b, log'', ?_, h4⟩
  change Run.andThen m k log = _
  unfold Run.andThen
  rw [h1]
  exact h3

theorem Succ.lift {Q : α → Prop} {e : Except PyErr α} (h : ∃ a, e = .ok a ∧ Q a) : Succ (Run.lift e : Run K α) Q := by
  obtain ⟨a, rfl, h⟩ := h
  exact fun log => ⟨a, log, rfl, h⟩

theorem Succ.bindOk {Q : β → Prop} {e : Except PyErr α} {a : α} {k : α → Run K β} (he : e = .ok a) (hk : Succ (k a) Q) : Succ (Run.lift e >>= k) Q :=
  Succ.bind (P := fun b => b = a) (Succ.lift ⟨a, he, rfl⟩) fun b hb => by rw [hb]; exact hk

theorem Succ.and {P Q : α → Prop} {m : Run K α} (hm : Succ m P) (ht : Tri (fun _ => True) m Q) : Succ m (fun a => P a ∧ Q a) := by
  intro log
  obtain ⟨a, log', h1, h2⟩ := hm log
  exact ⟨a, log', h1, h2, (ht log (by simp)).2 a (by rw [h1])⟩

theorem Succ.ite {Q : α → Prop} {c : Prop} [Decidable c] {m m' : Run K α} (h : c → Succ m Q) (h' : ¬ c → Succ m' Q) : Succ (if c then m else m') Q := by
  split_ifs with hc
  · exact h hc
  · exact h' hc

theorem Succ.call {F : UserF K} {V : List K → List K} {N : ℕ} (hV : PureF F V N) (p : List K) : Succ (F.call p) (fun v => v = V p) := by
  intro log
  refine ⟨V p, log ++ [p], ?_, rfl⟩
  unfold UserF.call
  rw [hV.1]

theorem Succ.callGen {F : UserF K} {V : List K → List K} {D : List K → List (List K)} {N : ℕ} (hV : PureF F V N) (hD : PureD F D N) (p : List K) :
    Succ (F.callGen p) (fun r => r = (V p, D p)) := by
  intro log
  refine ⟨(V p, D p), log ++ [p], ?_, rfl⟩
  unfold UserF.callGen
  rw [hV.1, hD.1]

end

theorem bzip_total (op : K → K → K) {a b : List K} (h : a.length = b.length) : ∃ r, bzip op a b = .ok r ∧ r.length = a.length :=
  ⟨_, by unfold bzip; rw [if_pos h], by simp [h]⟩

theorem mapM_total {α β : Type} {f : α → Except PyErr β} : ∀ {l : List α}, (∀ a ∈ l, ∃ b, f a = .ok b) → ∃ r, l.mapM f = .ok r
  | [], _ => ⟨[], rfl⟩
  | a :: l, h => by
    obtain ⟨b, hb⟩ := h a (by simp)
    obtain ⟨r, hr⟩ := mapM_total fun x hx => h x (List.mem_cons_of_mem _ hx)
    exact ⟨b :: r, by rw [List.mapM_cons, hb, hr]; rfl⟩

theorem normalEqs_total {isgen : Bool} {wgt beta : List K} {rows : List (List K)} (h0 : rows ≠ []) (hb : ∀ r ∈ rows, r.length = beta.length)
    (hw : wgt.length = beta.length) : ∃ ba, normalEqs isgen wgt beta rows = .ok ba := by
  obtain ⟨bt, h1⟩ := mapM_total (f := fun r => dot1 r beta) (l := rows) fun r hr => ⟨_, by unfold dot1; rw [if_pos (hb r hr)]⟩
  obtain ⟨wr, h2⟩ := mapM_total (f := fun r => bzip (· * ·) wgt r) (l := rows) fun r hr =>
    (bzip_total _ (hw.trans (hb r hr).symm)).imp fun _ h => h.1
  have hwr : ∀ r ∈ wr, r.length = beta.length := by
    have h4 := mapM_ok h2
    have hl := h4.length_eq
    rw [forall2_getD [] []] at h4
    intro r hr
    obtain ⟨i, hi, rfl⟩ := List.getElem_of_mem hr
    have hi' : i < rows.length := by omega
    have h5 := h4.2 i hi'
    rw [List.getD_eq_getElem _ _ hi, List.getD_eq_getElem _ _ hi'] at h5
    have h6 := hb _ (List.getElem_mem hi')
    rw [bzip_length h5 (by rw [hw, h6])]
    simp [hw, h6]
  obtain ⟨al, h3⟩ := mapM_total (f := fun r => rows.mapM (fun r' => dot1 r r')) (l := wr) fun r hr =>
    mapM_total fun r' hr' => ⟨_, by unfold dot1; rw [if_pos ((hwr r hr).trans (hb r' hr').symm)]⟩
  refine ⟨(bt, al), ?_⟩
  unfold normalEqs
  simp only [bind, Except.bind, pure, Except.pure]
  rw [if_neg (fun h => h0 h.1)]
  simp only [h1, h2, h3]

theorem bcast1_total {n : ℕ} {l : List K} (h : l.length = 1 ∨ l.length = n) : ∃ r, bcast1 n l = .ok r := by
  unfold bcast1
  rcases h with h | h
  · split_ifs
    · exact ⟨_, rfl⟩
    · exact ⟨_, rfl⟩
  · rw [if_pos h]; exact ⟨_, rfl⟩

theorem freeMask_total {np : ℕ} : ∀ {l : List ℤ}, (∀ k ∈ l, -(np : ℤ) ≤ k ∧ k < np) → ∃ m, freeMask np l = .ok m
  | [], _ => ⟨_, rfl⟩
  | a :: l, h => by
    obtain ⟨m, hm⟩ := freeMask_total fun k hk => h k (List.mem_cons_of_mem _ hk)
    have ha := h a (by simp)
    unfold freeMask normAxis
    simp only [bind, Except.bind, pure, Except.pure, hm]
    split_ifs with h1 h2 h3
    all_goals first | exact ⟨_, rfl⟩ | (exfalso; omega)

section
variable {A : LmArgs K} {F : UserF K} {solve : List (List K) → List K → Except PyErr (List K)} {E : LmEnv K}
  {V : List K → List K} {D : List K → List (List K)} {B : ℕ → ℕ → K} {c : ℕ → K} {mu : K}

theorem env_total (hw : WellPosed A F D B) (hmin : A.pmin = none) (hmax : A.pmax = none) : ∃ E, A.env F solve = .ok E := by
  obtain ⟨r1, h1⟩ := bcast1_total hw.errs
  obtain ⟨r2, h2⟩ := bcast1_total hw.prel
  obtain ⟨r3, h3⟩ := bcast1_total hw.pabs
  obtain ⟨m, h4⟩ := freeMask_total (np := A.p0.length) (l := A.pfix.getD []) fun k hk => by
    cases hp : A.pfix with
    | none => rw [hp] at hk; simp at hk
    | some l => rw [hp] at hk; exact hw.pfix l hp k hk
  unfold LmArgs.env
  simp only [bind, Except.bind, pure, Except.pure, h1, h2, h3, h4, hmin, hmax, Option.mapM]
  exact ⟨_, rfl⟩

/-- evaluating the model and its derivatives succeeds -/
theorem g_total (h : EnvOf A F solve E) (hs : SolveLen solve) (hw : WellPosed A F D B) (hV : PureF F V A.data.length)
    (hD : F.isgen = true → PureD F D A.data.length) (hmax : A.pmax = none) (p : List K) : Succ (E.g p) (fun _ => True) := by
  have hE := h.ok hs
  unfold LmEnv.g
  refine Succ.ite (fun hg => ?_) fun hg => ?_
  · rw [h.F] at hg ⊢
    refine Succ.bind (Succ.callGen hV (hD hg) _) fun r hr => ?_
    refine Succ.ite (fun hne => ?_) fun _ => Succ.ret trivial
    exfalso
    apply hne
    rw [hr, h.mask_len]
    exact hw.gen hg _
  · rw [h.F] at hg ⊢
    refine Succ.bind (Succ.call hV _) fun f0 hf0 => ?_
    have e2 : E.pmax = none := by
      rcases h.pmax with h1 | ⟨a, b, h1, -⟩
      · exact h1.2
      · rw [hmax] at h1; cases h1
    refine Succ.bind (P := fun _ => True) (fun log => ?_) fun _ _ => Succ.ret trivial
    rw [hf0, e2]
    have hfl : (E.full p).length = A.p0.length := by rw [E.full_length, h.p0]
    obtain ⟨rows, hr⟩ := (C47_zero_step (pmin := E.pmin) (log := log) hV (by rw [hE.prel, E.full_length]) (by rw [hE.pabs, E.full_length])
      (by rw [hE.mask, E.full_length]) (p := E.full p)).1 fun i hi _ => by
        have h5 := hw.pabs0 (by simpa using hg) i (by rw [← hfl]; exact hi)
        rw [← (bcast1_ok h.pabs).2 i (by rw [← hfl]; exact hi)] at h5
        exact (lt_of_lt_of_le h5 (le_max_right _ _)).ne'
    rcases hx : numericalPartials F (E.full p) (V (E.full p)) E.pmin none E.prel E.pabs E.pmask log with ⟨x, log'⟩
    rw [hx] at hr
    simp only at hr
    rw [hr]
    exact ⟨rows, log', rfl, trivial⟩

/-- the matrices of the normal equations are not singular -/
theorem damp_nonsing (h : EnvOf A F solve E) (hs : SolveLen solve) (hw : WellPosed A F D B) (hV : PureF F V A.data.length)
    (hD : F.isgen = true → PureD F D A.data.length) (hB : LinearModel A V B c) (hDB : F.isgen = true → ∀ q i t, ent (D q) i t = B i t)
    (hmu : 0 < mu) (hc : Conditioned A B mu) {lam : K} (hlam : 0 ≤ lam) {p1 beta bt : List K} {rows al : List (List K)}
    (hp1 : p1.length = E.pmask.countP id) (hrows : RowsAt E p1 rows) {isgen : Bool} (hn : normalEqs isgen E.wgt beta rows = .ok (bt, al)) :
    (damp al lam).length = E.pmask.countP id ∧ (∀ r ∈ damp al lam, r.length = (damp al lam).length) ∧ NonSing (damp al lam) := by
  obtain ⟨hrl, hrt, G, hG, hGr⟩ := rows_grad h hs hV hD hp1 hrows
  obtain ⟨hal, halr, hale⟩ := alpha_eq h hn hrt
  have hfull : ∀ p, (E.full p).length = A.p0.length := fun p => by rw [E.full_length, h.p0]
  set nf := (freeIdx E.pmask).length with hnf
  set f : ℕ → ℕ := fun k => (freeIdx E.pmask).getD k 0 with hf
  have hmem : ∀ k < nf, f k < A.p0.length ∧ ¬ Fixed A (f k) := fun k hk => by
    have hm : f k ∈ freeIdx E.pmask := by rw [hf]; simp only; rw [List.getD_eq_getElem _ _ hk]; exact List.getElem_mem _
    obtain ⟨m1, m2⟩ := mem_freeIdx.1 hm
    have m3 : f k < A.p0.length := by rw [← h.mask_len]; exact m1
    refine ⟨m3, fun hfix => ?_⟩
    have := (getD_false_of_true m1).1 ((h.mask _ m3).2 hfix)
    exact this m2
  have hrB : ∀ k < nf, ∀ t < A.data.length, ent rows k t = B (f k) t := fun k hk t ht => by
    rw [hGr k (by rw [hrl]; exact hk) t ht, grad_eq hB hDB (hfull p1) hG (hmem k hk).1 (hmem k hk).2 ht]
  have hcl : E.pmask.countP id = nf := by rw [hnf, freeIdx_length]
  obtain ⟨d1, d2⟩ := damp_shape (lam := lam) (hal.trans hrl) (fun r hr => (halr r hr).trans hrl)
  refine ⟨by rw [d1, hcl], fun r hr => by rw [d1]; exact d2 r hr, ?_⟩
  unfold NonSing
  rw [d1]
  intro x hx
  set g : ℕ → ℕ → K := fun i t => B i t / elem1 A.errs t with hg
  have hN : ∀ k < nf, ∀ l < nf, ent al k l = ∑ t ∈ Finset.range A.data.length, g (f k) t * g (f l) t := fun k hk l hl => by
    rw [hale k (by rw [hrl]; exact hk) l (by rw [hrl]; exact hl)]
    refine Finset.sum_congr rfl fun t ht => ?_
    rw [Finset.mem_range] at ht
    rw [hrB k hk t ht, hrB l hl t ht]
    simp only [hg]
    ring
  -- the quadratic form
  have hq : ∑ t ∈ Finset.range A.data.length, (∑ k ∈ Finset.range nf, x k * g (f k) t) ^ 2 +
      lam * ∑ k ∈ Finset.range nf, (∑ t ∈ Finset.range A.data.length, g (f k) t ^ 2) * x k ^ 2 = 0 := by
    have h1 : ∑ k ∈ Finset.range nf, x k * ∑ l ∈ Finset.range nf, ent (damp al lam) k l * x l = 0 :=
      Finset.sum_eq_zero fun k hk => by rw [hx k (Finset.mem_range.1 hk), mul_zero]
    have h2 : ∀ k ∈ Finset.range nf, x k * ∑ l ∈ Finset.range nf, ent (damp al lam) k l * x l =
        ∑ l ∈ Finset.range nf, x k * x l * ∑ t ∈ Finset.range A.data.length, g (f k) t * g (f l) t +
        lam * ((∑ t ∈ Finset.range A.data.length, g (f k) t ^ 2) * x k ^ 2) := fun k hk => by
      rw [Finset.mem_range] at hk
      have a2 : ∀ l ∈ Finset.range nf, ent (damp al lam) k l * x l =
          x l * ∑ t ∈ Finset.range A.data.length, g (f k) t * g (f l) t + if k = l then lam * ent al k l * x l else 0 := fun l hl => by
        rw [Finset.mem_range] at hl
        rw [damp_ent (hal.trans hrl) (fun r hr => (halr r hr).trans hrl) hk hl, hN k hk l hl]
        split_ifs <;> ring
      rw [Finset.sum_congr rfl a2, Finset.sum_add_distrib, Finset.sum_ite_eq, if_pos (Finset.mem_range.2 hk), hN k hk k hk, mul_add, Finset.mul_sum]
      congr 1
      · exact Finset.sum_congr rfl fun l _ => by ring
      · have : ∑ t ∈ Finset.range A.data.length, g (f k) t * g (f k) t = ∑ t ∈ Finset.range A.data.length, g (f k) t ^ 2 :=
          Finset.sum_congr rfl fun t _ => by ring
        rw [this]; ring
    rw [Finset.sum_congr rfl h2, Finset.sum_add_distrib, ← Finset.mul_sum] at h1
    rw [← h1]
    congr 1
    have : ∀ t ∈ Finset.range A.data.length, (∑ k ∈ Finset.range nf, x k * g (f k) t) ^ 2 =
        ∑ k ∈ Finset.range nf, ∑ l ∈ Finset.range nf, x k * x l * (g (f k) t * g (f l) t) := fun t _ => by
      rw [sq, Finset.sum_mul_sum]
      exact Finset.sum_congr rfl fun k _ => Finset.sum_congr rfl fun l _ => by ring
    rw [Finset.sum_congr rfl this, Finset.sum_comm]
    refine Finset.sum_congr rfl fun k _ => ?_
    rw [Finset.sum_comm]
    exact Finset.sum_congr rfl fun l _ => by rw [Finset.mul_sum]
  have hz : ∑ t ∈ Finset.range A.data.length, (∑ k ∈ Finset.range nf, x k * g (f k) t) ^ 2 ≤ 0 := by
    have : 0 ≤ lam * ∑ k ∈ Finset.range nf, (∑ t ∈ Finset.range A.data.length, g (f k) t ^ 2) * x k ^ 2 :=
      mul_nonneg hlam (Finset.sum_nonneg fun _ _ => mul_nonneg (Finset.sum_nonneg fun _ _ => sq_nonneg _) (sq_nonneg _))
    linarith
  -- spread over all parameters
  set xl : List K := (List.range nf).map x with hxl
  have hxll : xl.length = E.pmask.countP id := by rw [hcl]; simp [hxl]
  set u : ℕ → K := fun i => (maskSet E.pmask xl (List.replicate A.p0.length 0)).getD i 0 with hu
  have hml : E.pmask.length = (List.replicate A.p0.length (0 : K)).length := by rw [h.mask_len]; simp
  have huf : ∀ k < nf, u (f k) = x k := fun k hk => by
    simp only [hu, hf]
    rw [maskSet_getD_free 0 _ _ _ hml hxll k hk, hxl, List.getD_eq_getElem _ _ (by simpa using hk)]
    simp
  have hu0 : ∀ i < A.p0.length, Fixed A i → u i = 0 := fun i hi hfx => by
    simp only [hu]
    rw [maskSet_false _ _ _ _ _ ((h.mask i hi).2 hfx), List.getD_eq_getElem _ _ (by simpa using hi)]
    simp
  have hcu := hc u hu0
  have e1 : ∑ t ∈ Finset.range A.data.length, ((∑ i ∈ Finset.range A.p0.length, B i t * u i) / elem1 A.errs t) ^ 2 =
      ∑ t ∈ Finset.range A.data.length, (∑ k ∈ Finset.range nf, x k * g (f k) t) ^ 2 := by
    refine Finset.sum_congr rfl fun t _ => ?_
    congr 1
    have : ∑ i ∈ Finset.range A.p0.length, B i t * u i = ∑ k ∈ Finset.range nf, B (f k) t * u (f k) := by
      rw [← h.mask_len]
      refine sum_freeIdx E.pmask _ fun j hj h0 => ?_
      rw [h.mask_len] at hj
      rw [hu0 j hj ((h.mask j hj).1 h0), mul_zero]
    rw [this, Finset.sum_div]
    refine Finset.sum_congr rfl fun k hk => ?_
    rw [huf k (Finset.mem_range.1 hk)]
    simp only [hg]
    ring
  rw [e1] at hcu
  have hz2 : ∑ i ∈ Finset.range A.p0.length, ∑ t ∈ Finset.range A.data.length, (B i t * u i / elem1 A.errs t) ^ 2 ≤ 0 := by
    by_contra hcon
    have := mul_pos hmu (not_le.1 hcon)
    linarith
  intro k hk
  obtain ⟨m1, m2⟩ := hmem k hk
  obtain ⟨t, ht, hBt⟩ := hw.cols _ m1 m2
  have h3 : (B (f k) t * u (f k) / elem1 A.errs t) ^ 2 ≤ 0 := by
    refine le_trans ?_ hz2
    refine le_trans ?_ (Finset.single_le_sum (f := fun i => ∑ t ∈ Finset.range A.data.length, (B i t * u i / elem1 A.errs t) ^ 2)
      (fun i _ => Finset.sum_nonneg fun _ _ => sq_nonneg _) (Finset.mem_range.2 m1))
    exact Finset.single_le_sum (f := fun t => (B (f k) t * u (f k) / elem1 A.errs t) ^ 2) (fun t _ => sq_nonneg _) (Finset.mem_range.2 ht)
  have h4 := pow_eq_zero_iff (two_ne_zero) |>.1 (le_antisymm h3 (sq_nonneg _))
  rw [div_eq_zero_iff, mul_eq_zero] at h4
  rcases h4 with (h4 | h4) | h4
  · exact absurd h4 hBt
  · rw [← huf k hk]; exact h4
  · exact absurd h4 (hw.errs0 t ht)

theorem chi2At_total (h : EnvOf A F solve E) (hV : PureF F V A.data.length) (p : List K) : Succ (E.chi2At p) (fun _ => True) := by
  unfold LmEnv.chi2At
  rw [h.F]
  refine Succ.bind (Succ.call hV _) fun v hv => ?_
  obtain ⟨dm, h1, l1⟩ := bzip_total (· - ·) (a := E.data) (b := v) (by rw [h.data, hv, hV.2])
  refine Succ.bindOk h1 ?_
  obtain ⟨w, h2, l2⟩ := bzip_total (· * ·) (a := E.wgt) (b := dm) (by rw [h.wgt.1, l1, h.data])
  refine Succ.bindOk h2 ?_
  obtain ⟨w2, h3, -⟩ := bzip_total (· * ·) (a := w) (b := dm) (by rw [l2, h.wgt.1, l1, h.data])
  exact Succ.bindOk h3 (Succ.ret trivial)

/-- the inner loop returns after one trial -/
theorem inner_total (h : EnvOf A F solve E) (hs : SolveLen solve) (hV : PureF F V A.data.length) (hmin : A.pmin = none) (hmax : A.pmax = none)
    {alpha : List (List K)} {beta p1 : List K} {chi2p lam : K}
    (hp1 : p1.length = E.pmask.countP id) (hb : beta.length = E.pmask.countP id) (hc : chi2p = lmChisq A V (E.full p1)) (hne : chi2p ≠ 0)
    (hsol : ∃ x, solve (damp alpha lam) beta = .ok x)
    (hstep : ∀ x s, solve (damp alpha lam) beta = .ok x → bzip (· + ·) p1 x = .ok s → StepOK A V (KeepsFixed A) mu lam (E.full p1) (E.full s)) {fuel : ℕ} (hf : 0 < fuel) :
    Succ (E.inner alpha beta p1 chi2p fuel lam) (fun _ => True) := by
  obtain ⟨fuel, rfl⟩ : ∃ n, fuel = n + 1 := ⟨fuel - 1, by omega⟩
  have hE := h.ok hs
  have hclip := clip_none h hmin hmax
  unfold LmEnv.inner
  obtain ⟨x, hx⟩ := hsol
  rw [h.solve]
  refine Succ.bindOk hx ?_
  have hxl : x.length = E.pmask.countP id := by rw [hs _ _ _ hx, hb]
  obtain ⟨s, hsx, hsl⟩ := bzip_total (· + ·) (a := p1) (b := x) (by rw [hp1, hxl])
  refine Succ.bindOk hsx ?_
  have hsl : s.length = E.pmask.countP id := by rw [hsl, hp1]
  have hst := hstep x s hx hsx
  rw [hclip s]
  refine Succ.bind (Succ.and (chi2At_total h hV _) (chi2At_tri (lmInv_true hE) hsl)) fun c' hc' => ?_
  obtain ⟨-, log, v, dm, w1, w, hv, h1, h2, h3, rfl⟩ := hc'
  rw [h.F, hV.1] at hv
  have hv := (Except.ok.inj hv).symm
  have hw := chi_eq h hv (by rw [hv, hV.2]) h1 h2 h3
  refine Succ.ite (fun _ => Succ.ret trivial) fun hno => ?_
  exfalso
  apply hno
  left
  have hle := hst.1
  have hn : 0 ≤ chi2p := by rw [hc]; exact lmChisq_nonneg A V _
  have hpos : 0 < chi2p := lt_of_le_of_ne hn (Ne.symm hne)
  rw [← hw, ← hc] at hle
  linarith

theorem outer_total (h : EnvOf A F solve E) (hs : SolveLen solve) (hso : SolveOK solve) (hst0 : SolveTotal solve) (hw : WellPosed A F D B)
    (hV : PureF F V A.data.length) (hD : F.isgen = true → PureD F D A.data.length) (hB : LinearModel A V B c)
    (hDB : F.isgen = true → ∀ q i t, ent (D q) i t = B i t) (hmin : A.pmin = none) (hmax : A.pmax = none) (hmu : 0 < mu) (hc : Conditioned A B mu)
    (hl0 : 0 < A.cfg.lambda0) (hgain : 1 < A.cfg.gain) {inFuel : ℕ} (hf : 0 < inFuel) : ∀ fuel (st : LmState K), 0 < fuel →
    A.cfg.itmax ≤ st.niter + fuel → st.p.length = E.pmask.countP id → 0 < st.lam → (st.niter ≠ 0 → st.chi2 = lmChisq A V (E.full st.p)) →
    Succ (E.outer inFuel fuel st) (fun st => (∀ r ∈ st.alpha, r.length = st.alpha.length) ∧ NonSing st.alpha)
  | 0, st, h0, _, _, _, _ => absurd h0 (lt_irrefl 0)
  | fuel + 1, st, _, hit, hlen, hlam0, hpos => by
    have hE := h.ok hs
    have hcnt : 0 < E.pmask.countP id := by
      obtain ⟨i, hi, hfr⟩ := hw.free
      obtain ⟨k, hk, -⟩ := exists_freeIdx (m := E.pmask) (i := i) (by rw [h.mask_len]; exact hi) fun h0 => hfr ((h.mask i hi).1 h0)
      rw [← freeIdx_length]; omega
    unfold LmEnv.outer
    refine Succ.bind (Succ.and (g_total h hs hw hV hD hmax st.p) (Tri.and (g_tri hE (lmInv_true hE) hlen) (g_rows st.p))) fun gv hgv => ?_
    obtain ⟨-, ⟨hgl, log, hgv⟩, hrows⟩ := hgv
    rw [h.F, hV.1] at hgv
    have hgv := (Except.ok.inj hgv).symm
    obtain ⟨dm, hdm, l1⟩ := bzip_total (· - ·) (a := E.data) (b := gv.1) (by rw [h.data, hgv, hV.2])
    refine Succ.bindOk hdm ?_
    obtain ⟨beta, hbeta, l2⟩ := bzip_total (· * ·) (a := E.wgt) (b := dm) (by rw [h.wgt.1, l1, h.data])
    refine Succ.bindOk hbeta ?_
    obtain ⟨cc, hcc, -⟩ := bzip_total (· * ·) (a := beta) (b := dm) (by rw [l2, h.wgt.1, l1, h.data])
    refine Succ.bindOk hcc ?_
    have hcs : cc.sum = lmChisq A V (E.full st.p) := chi_eq h hgv (by rw [hgv, hV.2]) hdm hbeta hcc
    have hchi : (if st.niter = 0 then cc.sum else st.chi2) = lmChisq A V (E.full st.p) := by
      split_ifs with h0
      · exact hcs
      · exact hpos h0
    simp only [hchi]
    have hrt := (rows_grad h hs hV hD hlen hrows).2.1
    obtain ⟨ba, hba⟩ := normalEqs_total (isgen := E.F.isgen) (wgt := E.wgt) (beta := beta) (rows := gv.2)
      (by intro h0; rw [h0] at hgl; simp at hgl; omega) (fun r hr => by rw [hrt r hr, l2, h.wgt.1]) (by rw [l2])
    refine Succ.bindOk hba ?_
    have hbal : ba.1.length = E.pmask.countP id := by rw [← (normalEqs_ok hba).1.length_eq, hgl]
    have key : ∀ lam : K, 0 ≤ lam → _ := fun lam hlam => damp_nonsing (lam := lam) h hs hw hV hD hB hDB hmu hc hlam hlen hrows (bt := ba.1) (al := ba.2) hba
    have hal : (∀ r ∈ ba.2, r.length = ba.2.length) ∧ NonSing ba.2 := by
      obtain ⟨k1, k2, k3⟩ := key 0 le_rfl
      have a1 := (alpha_eq h (bt := ba.1) (al := ba.2) hba hrt).1
      have a2 := (alpha_eq h (bt := ba.1) (al := ba.2) hba hrt).2.1
      refine ⟨fun r hr => by rw [a1]; exact a2 r hr, ?_⟩
      unfold NonSing at k3 ⊢
      have hdl : (damp ba.2 0).length = ba.2.length := (damp_shape (lam := (0:K)) (n := ba.2.length) rfl fun r hr => by rw [a1]; exact a2 r hr).1
      rw [hdl] at k3
      intro x hx
      refine k3 x fun i hi => ?_
      refine Eq.trans ?_ (hx i hi)
      refine Finset.sum_congr rfl fun k hk => ?_
      rw [damp_ent (n := ba.2.length) rfl (fun r hr => by rw [a1]; exact a2 r hr) hi (Finset.mem_range.1 hk)]
      split_ifs <;> ring
    refine Succ.ite (fun h0 => Succ.ret hal) fun hne => ?_
    have hsol : ∃ x, solve (damp ba.2 st.lam) ba.1 = .ok x := by
      obtain ⟨k1, k2, k3⟩ := key st.lam hlam0.le
      exact hst0 _ _ k2 (by rw [hbal, k1]) k3
    have hstep : ∀ x s, solve (damp ba.2 st.lam) ba.1 = .ok x → bzip (· + ·) st.p x = .ok s → StepOK A V (KeepsFixed A) mu st.lam (E.full st.p) (E.full s) := fun x s hx hsx =>
      step_ok h hs hso hV hD hB hDB hmu hc hlam0.le hlen hgv hdm hbeta hrows (bt := ba.1) (al := ba.2) hba hx hsx
    refine Succ.bind (Succ.and (inner_total (mu := mu) h hs hV hmin hmax hlen hbal rfl hne hsol hstep hf)
      (inner_lin (mu := mu) (U := KeepsFixed A) (J := fun p => p.length = E.pmask.countP id) h hs hV (fun s hl => hE.clip_length hl) hlen hbal rfl hne
        (fun x s hx hsx => by rw [clip_none h hmin hmax]; exact hstep x s hx hsx) _)) fun r hr => ?_
    obtain ⟨-, hr1, hr2, hr3, hr4⟩ := hr
    refine Succ.ite (fun _ => Succ.ret hal) fun _ => ?_
    refine Succ.ite (fun _ => Succ.ret hal) fun hit' => ?_
    rw [h.cfg] at hit'
    refine outer_total h hs hso hst0 hw hV hD hB hDB hmin hmax hmu hc hl0 hgain hf fuel _ (by omega) ?_ hr1 ?_ (fun _ => hr2)
    · simp only; omega
    · simp only
      rw [hr3, h.cfg]
      exact div_pos hlam0 (by linarith)

end
end LinAux

open LinAux
section
variable {A : LmArgs K} {F : UserF K} {solve : List (List K) → List K → Except PyErr (List K)}
  {V : List K → List K} {D : List K → List (List K)} {B : ℕ → ℕ → K} {c : ℕ → K} {mu : K}

/-- **C112**, success: on every well posed linear model without bounds levmar returns a fit (with a number of rounds of its loops known in advance:
`itmax` of the outer, one of each inner loop): it raises no exception whatever, in particular no LevmarError. -/
theorem C112_succeeds (hs : SolveLen solve) (hso : SolveOK solve) (hst : SolveTotal solve) {inv : List (List K) → Except PyErr (List (List K))}
    (hit : InvTotal inv) (hw : WellPosed A F D B) (hV : PureF F V A.data.length)
    (hD : F.isgen = true → PureD F D A.data.length) (hB : LinearModel A V B c) (hDB : F.isgen = true → ∀ q i t, ent (D q) i t = B i t)
    (hmin : A.pmin = none) (hmax : A.pmax = none) (hmu : 0 < mu) (hc : Conditioned A B mu) (hl0 : 0 < A.cfg.lambda0) (hgain : 1 < A.cfg.gain)
    {fo fi : ℕ} (hfo : max A.cfg.itmax 1 ≤ fo) (hfi : 1 ≤ fi) : ∃ r, (levmar A F solve inv fo fi).1 = .ok r := by
  obtain ⟨E, hE⟩ := env_total (solve := solve) hw hmin hmax
  have h := env_ok hE
  have hp := pathOK_init (V := V) h
  unfold levmar
  rw [hE]
  have h1 := outer_total h hs hso hst hw hV hD hB hDB hmin hmax hmu hc hl0 hgain (inFuel := fi) (by omega) fo E.init (by omega)
    (by simp only [LmEnv.init]; omega) hp.len (by simp only [LmEnv.init]; rw [h.cfg]; exact hl0) (fun h0 => absurd rfl h0)
  have h2 : Succ (E.outer fi fo E.init >>= fun st => Run.lift (E.finish inv st)) (fun _ => True) := by
    refine Succ.bind h1 fun st ⟨hs1, hs2⟩ => Succ.lift ?_
    obtain ⟨N, hN⟩ := hit _ hs1 hs2
    unfold LmEnv.finish
    simp only [bind, Except.bind, pure, Except.pure, hN]
    exact ⟨_, rfl, trivial⟩
  obtain ⟨r, log, hr, -⟩ := h2 []
  exact ⟨r, by simp only; rw [hr]⟩

end

/-! ### the constant of the columns exists -/

/-- **C112**, the constant: when the effects of the free parameters are linearly independent (and no error is zero) there is a constant `mu > 0` as
assumed in the other theorems; it depends on the coefficients and the errors only. -/
theorem C112_conditioned {A : LmArgs K} {B : ℕ → ℕ → K} (he : ∀ t < A.data.length, elem1 A.errs t ≠ 0) (hi : IndependentCols A B) :
    ∃ mu > 0, Conditioned A B mu := by
  classical
  let W := {i : Fin A.p0.length // ¬ Fixed A i}
  let g : ℕ → ℕ → K := fun i t => B i t / elem1 A.errs t
  let G : (W → K) →ₗ[K] (Fin A.data.length → K) :=
    { toFun := fun x t => ∑ w : W, g w.1 t * x w
      map_add' := fun x y => by funext t; simp only [Pi.add_apply, mul_add, Finset.sum_add_distrib]
      map_smul' := fun a x => by
        funext t
        simp only [Pi.smul_apply, smul_eq_mul, RingHom.id_apply, Finset.mul_sum]
        exact Finset.sum_congr rfl fun w _ => by ring }
  have hsum : ∀ (u : ℕ → K) (b : ℕ → K), (∀ i < A.p0.length, Fixed A i → u i = 0) →
      ∑ i ∈ Finset.range A.p0.length, b i * u i = ∑ w : W, b w.1 * u w.1 := fun u b hu => by
    rw [← Fin.sum_univ_eq_sum_range (fun i => b i * u i)]
    rw [← Finset.sum_subtype (p := fun i : Fin A.p0.length => ¬ Fixed A i) (Finset.univ.filter fun i : Fin A.p0.length => ¬ Fixed A i)
      (fun x => by simp) (fun i : Fin A.p0.length => b i * u i)]
    symm
    apply Finset.sum_filter_of_ne
    intro i _ hne hf
    exact hne (by rw [hu i i.2 hf, mul_zero])
  have hker : LinearMap.ker G = ⊥ := by
    rw [LinearMap.ker_eq_bot']
    intro x hx
    let u : ℕ → K := fun i => if h : ∃ hl : i < A.p0.length, ¬ Fixed A i then x ⟨⟨i, h.1⟩, h.2⟩ else 0
    have huw : ∀ w : W, u w.1 = x w := fun w => by
      simp only [u]
      rw [dif_pos ⟨w.1.2, w.2⟩]
    have hu0 : ∀ i < A.p0.length, Fixed A i → u i = 0 := fun i _ hf => by
      simp only [u]
      rw [dif_neg]
      rintro ⟨-, h⟩
      exact h hf
    have := hi u hu0 fun t ht => by
      rw [hsum u (fun i => B i t) hu0]
      have h1 := congrFun hx ⟨t, ht⟩
      simp only [G, LinearMap.coe_mk, AddHom.coe_mk, Pi.zero_apply] at h1
      have h2 : ∑ w : W, B w.1 t * u w.1 = elem1 A.errs t * ∑ w : W, g w.1 t * x w := by
        rw [Finset.mul_sum]
        refine Finset.sum_congr rfl fun w _ => ?_
        rw [huw]
        simp only [g]
        have := he t ht
        field_simp
      rw [h2, h1, mul_zero]
    funext w
    rw [← huw w]
    exact this _ w.1.2
  obtain ⟨L, hL⟩ := LinearMap.exists_leftInverse_of_injective G hker
  let l : W → Fin A.data.length → K := fun w t => L (Pi.single t 1) w
  have hLv : ∀ y w, L y w = ∑ t, y t * l w t := fun y w => by
    conv_lhs => rw [← Finset.univ_sum_single y]
    rw [map_sum, Finset.sum_apply]
    refine Finset.sum_congr rfl fun t _ => ?_
    have : (Pi.single t (y t) : Fin A.data.length → K) = y t • Pi.single t 1 := by
      rw [← Pi.single_smul]; simp
    rw [this, map_smul]
    rfl
  set C : K := ∑ w : W, (∑ t ∈ Finset.range A.data.length, g w.1 t ^ 2) * ∑ t, l w t ^ 2 with hC
  have hC0 : 0 ≤ C := Finset.sum_nonneg fun w _ => mul_nonneg (Finset.sum_nonneg fun _ _ => sq_nonneg _) (Finset.sum_nonneg fun _ _ => sq_nonneg _)
  refine ⟨1 / (C + 1), by positivity, fun u hu => ?_⟩
  set R : K := ∑ t ∈ Finset.range A.data.length, ((∑ i ∈ Finset.range A.p0.length, B i t * u i) / elem1 A.errs t) ^ 2 with hR
  have hR0 : 0 ≤ R := Finset.sum_nonneg fun _ _ => sq_nonneg _
  have hGu : ∀ t : Fin A.data.length, G (fun w => u w.1) t = (∑ i ∈ Finset.range A.p0.length, B i t * u i) / elem1 A.errs t := fun t => by
    rw [hsum u (fun i => B i t) hu, Finset.sum_div]
    simp only [G, LinearMap.coe_mk, AddHom.coe_mk, g]
    exact Finset.sum_congr rfl fun w _ => by ring
  have hRs : R = ∑ t, G (fun w => u w.1) t ^ 2 := by
    rw [hR, ← Fin.sum_univ_eq_sum_range (fun t => ((∑ i ∈ Finset.range A.p0.length, B i t * u i) / elem1 A.errs t) ^ 2)]
    exact Finset.sum_congr rfl fun t _ => by rw [hGu]
  have huw : ∀ w : W, u w.1 ^ 2 ≤ (∑ t, l w t ^ 2) * R := fun w => by
    have h1 : u w.1 = ∑ t, G (fun w => u w.1) t * l w t := by
      rw [← hLv]
      exact (congrFun (LinearMap.congr_fun hL fun w : W => u w.1) w).symm
    rw [h1, hRs, mul_comm]
    exact Finset.sum_mul_sq_le_sq_mul_sq _ _ _
  have hS : ∑ i ∈ Finset.range A.p0.length, ∑ t ∈ Finset.range A.data.length, (B i t * u i / elem1 A.errs t) ^ 2 ≤ C * R := by
    have h1 : ∀ i, ∑ t ∈ Finset.range A.data.length, (B i t * u i / elem1 A.errs t) ^ 2 = (∑ t ∈ Finset.range A.data.length, g i t ^ 2) * u i * u i := fun i => by
      rw [mul_assoc, Finset.sum_mul]
      exact Finset.sum_congr rfl fun t _ => by simp only [g]; ring
    rw [Finset.sum_congr rfl fun i _ => h1 i, hsum u (fun i => (∑ t ∈ Finset.range A.data.length, g i t ^ 2) * u i) hu, hC, Finset.sum_mul]
    refine Finset.sum_le_sum fun w _ => ?_
    rw [mul_assoc, mul_assoc, ← sq]
    exact mul_le_mul_of_nonneg_left (huw w) (Finset.sum_nonneg fun _ _ => sq_nonneg _)
  rw [one_div, inv_mul_le_iff₀ (by positivity)]
  linarith

section
variable {A : LmArgs K} {F : UserF K} {solve : List (List K) → List K → Except PyErr (List K)}
  {V : List K → List K} {D : List K → List (List K)} {B : ℕ → ℕ → K} {c : ℕ → K}

/-- **C112**, put together: for every well posed linear model with independent columns and without bounds levmar returns a fit, and the sum of
squares there is within the stated distance of the smallest possible one. -/
theorem C112_best_fit (hs : SolveLen solve) (hso : SolveOK solve) (hst : SolveTotal solve) {inv : List (List K) → Except PyErr (List (List K))}
    (hit : InvTotal inv) (hw : WellPosed A F D B) (hi : IndependentCols A B) (hV : PureF F V A.data.length)
    (hD : F.isgen = true → PureD F D A.data.length) (hB : LinearModel A V B c) (hDB : F.isgen = true → ∀ q i t, ent (D q) i t = B i t)
    (hmin : A.pmin = none) (hmax : A.pmax = none) (hl0 : 0 < A.cfg.lambda0) (hgain : 1 < A.cfg.gain) (htol : 0 ≤ A.cfg.tol)
    {fo fi : ℕ} (hfo : max A.cfg.itmax 1 ≤ fo) (hfi : 1 ≤ fi) :
    ∃ mu > 0, Conditioned A B mu ∧ ∃ r, (levmar A F solve inv fo fi).1 = .ok r ∧ ∀ u, KeepsFixed A u →
      (r.warned = false → r.lamda = A.cfg.lambda0 / A.cfg.gain ^ r.niter ∧
        lmChisq A V r.p ≤ lmChisq A V u + r.lamda * A.cfg.tol / (2 * mu) * lmChisq A V A.p0) ∧
      (r.warned = true →
        lmChisq A V r.p ≤ lmChisq A V u + (A.cfg.lambda0 / (2 * mu + A.cfg.lambda0)) ^ A.cfg.itmax * lmChisq A V A.p0) := by
  obtain ⟨mu, hmu, hc⟩ := C112_conditioned hw.errs0 hi
  obtain ⟨r, hr⟩ := C112_succeeds hs hso hst hit hw hV hD hB hDB hmin hmax hmu hc hl0 hgain hfo hfi
  exact ⟨mu, hmu, hc, r, hr, fun u hu => C112_linear_model hs hso hV hD hB hDB hmin hmax hmu hc hl0 hgain htol hr hu⟩

end

/-! ### exact solvers exist, and a concrete case -/

/-- the matrix of a list of rows -/
def toMat (M : List (List K)) : Matrix (Fin M.length) (Fin M.length) K := fun i j => ent M i j

open Classical in
/-- an exact `numpy.linalg.solve` -/
noncomputable def solveN (M : List (List K)) (b : List K) : Except PyErr (List K) :=
  if (toMat M).det = 0 ∨ b.length ≠ M.length then .error .linAlgError
  else .ok (List.ofFn ((toMat M)⁻¹.mulVec fun i => b.getD i 0))

open Classical in
/-- an exact `numpy.linalg.inv` -/
noncomputable def invN (M : List (List K)) : Except PyErr (List (List K)) :=
  if (toMat M).det = 0 then .error .linAlgError else .ok (List.ofFn fun i => List.ofFn fun j => (toMat M)⁻¹ i j)

theorem nonSing_det {M : List (List K)} (h : NonSing M) : (toMat M).det ≠ 0 := by
  intro h0
  obtain ⟨v, hv, hz⟩ := Matrix.exists_mulVec_eq_zero_iff.2 h0
  apply hv
  funext k
  have := h (fun k => if hk : k < M.length then v ⟨k, hk⟩ else 0) (fun i hi => by
    have h1 := congrFun hz ⟨i, hi⟩
    simp only [Matrix.mulVec, dotProduct, toMat, Pi.zero_apply] at h1
    rw [← Fin.sum_univ_eq_sum_range (fun k => ent M i k * if hk : k < M.length then v ⟨k, hk⟩ else 0), ← h1]
    exact Finset.sum_congr rfl fun k _ => by simp) k k.2
  simpa using this

theorem solveN_ok : SolveLen (solveN (K := K)) ∧ SolveOK (solveN (K := K)) ∧ SolveTotal (solveN (K := K)) := by
  have key : ∀ M b (x : List K), solveN M b = .ok x → (toMat M).det ≠ 0 ∧ b.length = M.length ∧ x = List.ofFn ((toMat M)⁻¹.mulVec fun i => b.getD i 0) := by
    intro M b x h
    unfold solveN at h
    split_ifs at h with h0
    push Not at h0
    exact ⟨h0.1, h0.2, (Except.ok.inj h).symm⟩
  refine ⟨fun M b x h => ?_, fun M b x h _ _ => ?_, fun M b _ hb hn => ?_⟩
  · obtain ⟨-, h2, h3⟩ := key M b x h
    rw [h3, h2]; simp
  · obtain ⟨h1, h2, h3⟩ := key M b x h
    refine ⟨by rw [h3, h2]; simp, fun i hi => ?_⟩
    have h4 : (toMat M).mulVec ((toMat M)⁻¹.mulVec fun i : Fin M.length => b.getD i 0) = fun i : Fin M.length => b.getD i 0 := by
      rw [Matrix.mulVec_mulVec, Matrix.mul_nonsing_inv _ (isUnit_iff_ne_zero.2 h1), Matrix.one_mulVec]
    have h5 := congrFun h4 ⟨i, hi⟩
    simp only at h5
    rw [← h5, ← Fin.sum_univ_eq_sum_range (fun k => ent M i k * x.getD k 0)]
    conv_rhs => rw [Matrix.mulVec, dotProduct]
    refine Finset.sum_congr rfl fun k _ => ?_
    rw [h3, List.getD_eq_getElem _ _ (by simp), List.getElem_ofFn]
    rfl
  · exact ⟨_, by unfold solveN; rw [if_neg (by push Not; exact ⟨nonSing_det hn, hb⟩)]⟩

theorem invN_ok : InvTotal (invN (K := K)) := fun M _ hn => ⟨_, by unfold invN; rw [if_neg (nonSing_det hn)]⟩

theorem linArgs_wellPosed : WellPosed linArgs linUser (fun _ => []) linB where
  errs := Or.inl rfl
  errs0 := fun t ht => by
    have : elem1 linArgs.errs t = 2 := rfl
    rw [this]; norm_num
  prel := Or.inl rfl
  pabs := Or.inl rfl
  pabs0 := fun _ i _ => by
    have : elem1 (linArgs.pabs.getD [linArgs.cfg.pabs]) i = 1 / 8 := rfl
    rw [this]; norm_num
  pfix := fun l hl => by
    cases hl
    decide
  free := ⟨0, by decide, fun ⟨l, hl, k, hk, h⟩ => by
    cases hl
    simp only [List.mem_singleton] at hk
    subst hk
    revert h; decide⟩
  cols := fun i _ _ => ⟨1, by decide, by
    unfold linB
    split_ifs <;> simp⟩
  gen := fun h => by cases h

example : IndependentCols linArgs linB := by
  intro u hu h
  have h2 : u 2 = 0 := hu 2 (by decide) ⟨_, rfl, 2, by simp, Or.inl rfl⟩
  have h0 := h 0 (by decide)
  have h1 := h 1 (by decide)
  simp only [linArgs, List.length_cons, List.length_nil, Finset.sum_range_succ, Finset.sum_range_zero, linB, h2] at h0 h1
  simp at h0 h1
  intro i hi
  simp only [linArgs, List.length_cons, List.length_nil] at hi
  interval_cases i
  · exact h0
  · rw [h0] at h1; simpa using h1
  · exact h2

/-- the hypotheses on the solvers and on the arguments are satisfiable; the other ones are shown for the same case in `LevmarLin` -/
example : (SolveLen (solveN (K := ℚ)) ∧ SolveOK (solveN (K := ℚ)) ∧ SolveTotal (solveN (K := ℚ))) ∧ InvTotal (invN (K := ℚ)) ∧
    WellPosed linArgs linUser (fun _ => []) linB := ⟨solveN_ok, invN_ok, linArgs_wellPosed⟩

end Npplus
