import Verif.Props.LevmarEx

/-!
# C112: levmar finds the best fit of a linear model
-/

set_option linter.unusedSectionVars false
namespace Npplus
open Npplus.Spec

namespace Spec
variable {K : Type} [Field K] [LinearOrder K]

/-- The model function is linear in the parameters: datum `t` is `c_t + sum_i B_i,t q_i`. -/
def LinearModel (A : LmArgs K) (V : List K → List K) (B : ℕ → ℕ → K) (c : ℕ → K) : Prop :=
  ∀ q, q.length = A.p0.length → ∀ t < A.data.length, (V q).getD t 0 = c t + ∑ i ∈ Finset.range A.p0.length, B i t * q.getD i 0

/-- `mu` measures how independent the effects of the free parameters on the data are: the change of the model by `u`, squared and weighted, is at least
`mu` times the sum of what the changes of the single parameters would give (1 for orthogonal columns, 0 for dependent ones). -/
def Conditioned (A : LmArgs K) (B : ℕ → ℕ → K) (mu : K) : Prop :=
  ∀ u : ℕ → K, (∀ i < A.p0.length, Fixed A i → u i = 0) →
    mu * ∑ i ∈ Finset.range A.p0.length, ∑ t ∈ Finset.range A.data.length, (B i t * u i / elem1 A.errs t) ^ 2 ≤
      ∑ t ∈ Finset.range A.data.length, ((∑ i ∈ Finset.range A.p0.length, B i t * u i) / elem1 A.errs t) ^ 2

/-- `solve` solves: whatever it returns for a square matrix satisfies the equations. -/
def SolveOK (solve : List (List K) → List K → Except PyErr (List K)) : Prop :=
  ∀ M b x, solve M b = .ok x → (∀ r ∈ M, r.length = M.length) → b.length = M.length → x.length = b.length ∧
    ∀ i < M.length, ∑ k ∈ Finset.range M.length, ent M i k * x.getD k 0 = b.getD i 0

end Spec

variable {K : Type} [Field K] [LinearOrder K] [IsStrictOrderedRing K]

namespace LinAux

/-- one Levenberg-Marquardt step for a linear model -/
theorem step {np N : ℕ} {g : ℕ → ℕ → K} {ρ ρ' δ : ℕ → K} {lam : K} {free : ℕ → Prop} (hlam : 0 ≤ lam)
    (h1 : ∀ t < N, ρ' t = ρ t - ∑ i ∈ Finset.range np, δ i * g i t)
    (h2 : ∀ i < np, free i → ∑ t ∈ Finset.range N, g i t * ρ' t = lam * (∑ t ∈ Finset.range N, g i t ^ 2) * δ i)
    (h3 : ∀ i < np, ¬ free i → δ i = 0) :
    (∑ t ∈ Finset.range N, ρ t ^ 2 - ∑ t ∈ Finset.range N, ρ' t ^ 2 =
      ∑ t ∈ Finset.range N, (∑ i ∈ Finset.range np, δ i * g i t) ^ 2 + 2 * lam * ∑ i ∈ Finset.range np, (∑ t ∈ Finset.range N, g i t ^ 2) * δ i ^ 2) ∧
    ∀ mu > 0, ∀ u : ℕ → K, (∀ i < np, ¬ free i → u i = 0) →
      mu * ∑ i ∈ Finset.range np, (∑ t ∈ Finset.range N, g i t ^ 2) * u i ^ 2 ≤ ∑ t ∈ Finset.range N, (∑ i ∈ Finset.range np, u i * g i t) ^ 2 →
      ∑ t ∈ Finset.range N, ρ' t ^ 2 - ∑ t ∈ Finset.range N, (ρ' t - ∑ i ∈ Finset.range np, u i * g i t) ^ 2 ≤
        lam / (2 * mu) * (∑ t ∈ Finset.range N, ρ t ^ 2 - ∑ t ∈ Finset.range N, ρ' t ^ 2) := by
  set nn : ℕ → K := fun i => ∑ t ∈ Finset.range N, g i t ^ 2 with hnn
  have hnn0 : ∀ i, 0 ≤ nn i := fun i => Finset.sum_nonneg fun _ _ => sq_nonneg _
  have cross : ∀ u : ℕ → K, (∀ i < np, ¬ free i → u i = 0) →
      ∑ t ∈ Finset.range N, (∑ i ∈ Finset.range np, u i * g i t) * ρ' t = lam * ∑ i ∈ Finset.range np, nn i * (δ i * u i) := by
    intro u hu
    simp only [Finset.sum_mul]
    rw [Finset.sum_comm, Finset.mul_sum]
    refine Finset.sum_congr rfl fun i hi => ?_
    rw [Finset.mem_range] at hi
    by_cases hf : free i
    · have := h2 i hi hf
      calc ∑ t ∈ Finset.range N, u i * g i t * ρ' t = u i * ∑ t ∈ Finset.range N, g i t * ρ' t := by
            rw [Finset.mul_sum]; exact Finset.sum_congr rfl fun t _ => by ring
        _ = _ := by rw [this]; ring
    · rw [hu i hi hf]; simp
  have first : ∑ t ∈ Finset.range N, ρ t ^ 2 - ∑ t ∈ Finset.range N, ρ' t ^ 2 =
      ∑ t ∈ Finset.range N, (∑ i ∈ Finset.range np, δ i * g i t) ^ 2 + 2 * lam * ∑ i ∈ Finset.range np, nn i * δ i ^ 2 := by
    have c := cross δ h3
    have : ∑ i ∈ Finset.range np, nn i * δ i ^ 2 = ∑ i ∈ Finset.range np, nn i * (δ i * δ i) := Finset.sum_congr rfl fun i _ => by ring
    rw [this, mul_assoc, ← c, Finset.mul_sum, ← Finset.sum_add_distrib, ← Finset.sum_sub_distrib]
    refine Finset.sum_congr rfl fun t ht => ?_
    rw [h1 t (Finset.mem_range.1 ht)]
    ring
  refine ⟨first, fun mu hmu u hu hc => ?_⟩
  have c := cross u hu
  have e : ∑ t ∈ Finset.range N, ρ' t ^ 2 - ∑ t ∈ Finset.range N, (ρ' t - ∑ i ∈ Finset.range np, u i * g i t) ^ 2 =
      2 * (lam * ∑ i ∈ Finset.range np, nn i * (δ i * u i)) - ∑ t ∈ Finset.range N, (∑ i ∈ Finset.range np, u i * g i t) ^ 2 := by
    rw [← c, Finset.mul_sum, ← Finset.sum_sub_distrib, ← Finset.sum_sub_distrib]
    exact Finset.sum_congr rfl fun t _ => by ring
  rw [e, first]
  have sq : 2 * (lam * ∑ i ∈ Finset.range np, nn i * (δ i * u i)) - mu * ∑ i ∈ Finset.range np, nn i * u i ^ 2 ≤
      lam ^ 2 / mu * ∑ i ∈ Finset.range np, nn i * δ i ^ 2 := by
    rw [Finset.mul_sum, Finset.mul_sum, Finset.mul_sum, Finset.mul_sum, ← Finset.sum_sub_distrib]
    refine Finset.sum_le_sum fun i _ => ?_
    have : lam ^ 2 / mu * (nn i * δ i ^ 2) - (2 * (lam * (nn i * (δ i * u i))) - mu * (nn i * u i ^ 2)) = nn i / mu * (lam * δ i - mu * u i) ^ 2 := by
      field_simp; ring
    have h0 : 0 ≤ nn i / mu * (lam * δ i - mu * u i) ^ 2 := mul_nonneg (div_nonneg (hnn0 i) hmu.le) (sq_nonneg _)
    linarith
  have h4 : 0 ≤ ∑ t ∈ Finset.range N, (∑ i ∈ Finset.range np, δ i * g i t) ^ 2 := Finset.sum_nonneg fun _ _ => sq_nonneg _
  have h5 : lam / (2 * mu) * (∑ t ∈ Finset.range N, (∑ i ∈ Finset.range np, δ i * g i t) ^ 2 + 2 * lam * ∑ i ∈ Finset.range np, nn i * δ i ^ 2) =
      lam / (2 * mu) * ∑ t ∈ Finset.range N, (∑ i ∈ Finset.range np, δ i * g i t) ^ 2 + lam ^ 2 / mu * ∑ i ∈ Finset.range np, nn i * δ i ^ 2 := by
    field_simp
  rw [h5]
  have h6 : 0 ≤ lam / (2 * mu) := div_nonneg hlam (by linarith)
  have := mul_nonneg h6 h4
  linarith


section
variable {A : LmArgs K} {F : UserF K} {solve : List (List K) → List K → Except PyErr (List K)} {E : LmEnv K}
  {V : List K → List K} {D : List K → List (List K)} {B : ℕ → ℕ → K} {c : ℕ → K} {mu : K}

/-- the gradient of a linear model -/
theorem grad_eq (hB : LinearModel A V B c) (hDB : F.isgen = true → ∀ q i t, ent (D q) i t = B i t) {q : List K} (hq : q.length = A.p0.length)
    {G : ℕ → ℕ → K} (hG : GradAt A F V D q G) {i : ℕ} (hi : i < A.p0.length) (hf : ¬ Fixed A i) {t : ℕ} (ht : t < A.data.length) : G i t = B i t := by
  cases hg : F.isgen with
  | true => rw [hG.1 hg, hDB hg]
  | false =>
    obtain ⟨d, s, hd, -, -, hG⟩ := hG.2 hg i hi hf
    rw [hG t ht, hB _ (by rw [List.length_set]; exact hq) t ht, hB q hq t ht, add_sub_add_left_eq_sub, ← Finset.sum_sub_distrib,
      Finset.sum_eq_single i]
    · rw [List.getD_eq_getElem (l := q.set i _) _ (by rw [List.length_set]; omega), List.getElem_set_self]
      field_simp
      ring
    · intro j _ hj
      rw [List.getD_eq_getElem?_getD, List.getElem?_set_ne (Ne.symm hj), ← List.getD_eq_getElem?_getD, sub_self]
    · intro h; exact absurd (Finset.mem_range.2 hi) h

/-- what a step achieves -/
def StepOK (A : LmArgs K) (V : List K → List K) (U : List K → Prop) (mu lam : K) (q q' : List K) : Prop :=
  lmChisq A V q' ≤ lmChisq A V q ∧
    ∀ u, U u → lmChisq A V q' - lmChisq A V u ≤ lam / (2 * mu) * (lmChisq A V q - lmChisq A V q')

theorem damp_ent {al : List (List K)} {lam : K} {n : ℕ} (hl : al.length = n) (hr : ∀ r ∈ al, r.length = n) {k l : ℕ} (hk : k < n) (hlt : l < n) :
    ent (damp al lam) k l = ent al k l + if k = l then lam * ent al k l else 0 := by
  unfold ent damp
  have hk' : k < al.length := by omega
  have hrk : (al[k]).length = n := hr _ (List.getElem_mem hk')
  rw [List.getD_eq_getElem (l := List.mapIdx _ al) _ (by simpa using hk'), List.getElem_mapIdx, List.getD_eq_getElem al _ hk',
    List.getD_eq_getElem (l := List.mapIdx _ al[k]) _ (by simp; omega), List.getElem_mapIdx, List.getD_eq_getElem _ _ (by omega)]
  split_ifs <;> ring

theorem damp_shape {al : List (List K)} {lam : K} {n : ℕ} (hl : al.length = n) (hr : ∀ r ∈ al, r.length = n) :
    (damp al lam).length = n ∧ ∀ r ∈ damp al lam, r.length = n := by
  unfold damp
  refine ⟨by simpa using hl, fun r h => ?_⟩
  obtain ⟨i, hi, rfl⟩ := List.getElem_of_mem h
  rw [List.getElem_mapIdx, List.length_mapIdx]
  exact hr _ (List.getElem_mem _)

/-- weighted residual of datum `t` -/
def resid (A : LmArgs K) (V : List K → List K) (q : List K) (t : ℕ) : K := (A.data.getD t 0 - (V q).getD t 0) / elem1 A.errs t

/-- weighted column of parameter `i` -/
def wcol (A : LmArgs K) (B : ℕ → ℕ → K) (i t : ℕ) : K := B i t / elem1 A.errs t

theorem resid_lin (hB : LinearModel A V B c) {q q' : List K} (hq : q.length = A.p0.length) (hq' : q'.length = A.p0.length) {t : ℕ} (ht : t < A.data.length) :
    resid A V q' t = resid A V q t - ∑ i ∈ Finset.range A.p0.length, (q'.getD i 0 - q.getD i 0) * wcol A B i t := by
  simp only [resid, wcol]
  rw [hB q hq t ht, hB q' hq' t ht]
  have : ∑ i ∈ Finset.range A.p0.length, (q'.getD i 0 - q.getD i 0) * (B i t / elem1 A.errs t) =
      (∑ i ∈ Finset.range A.p0.length, B i t * q'.getD i 0 - ∑ i ∈ Finset.range A.p0.length, B i t * q.getD i 0) / elem1 A.errs t := by
    rw [← Finset.sum_sub_distrib, Finset.sum_div]
    exact Finset.sum_congr rfl fun i _ => by ring
  rw [this]
  ring

theorem full_fixed (h : EnvOf A F solve E) (p : List K) {i : ℕ} (hi : i < A.p0.length) (hfx : Fixed A i) : (E.full p).getD i 0 = A.p0.getD i 0 := by
  unfold LmEnv.full
  rw [maskSet_false _ _ _ _ _ ((h.mask i hi).2 hfx), h.p0]

/-- the equations of one step of the program -/
theorem step_eqs (h : EnvOf A F solve E) (hs : SolveLen solve) (hso : SolveOK solve) (hV : PureF F V A.data.length)
    (hD : F.isgen = true → PureD F D A.data.length) (hB : LinearModel A V B c) (hDB : F.isgen = true → ∀ q i t, ent (D q) i t = B i t)
    {lam : K}
    {p1 v dm beta x s bt : List K} {rows al : List (List K)} (hp1 : p1.length = E.pmask.countP id) (hv : v = V (E.full p1))
    (hdm : bzip (· - ·) E.data v = .ok dm) (hbeta : bzip (· * ·) E.wgt dm = .ok beta) (hrows : RowsAt E p1 rows) {isgen : Bool}
    (hn : normalEqs isgen E.wgt beta rows = .ok (bt, al)) (hx : solve (damp al lam) bt = .ok x) (hsx : bzip (· + ·) p1 x = .ok s) :
    s.length = E.pmask.countP id ∧ ∀ i < A.p0.length, ¬ Fixed A i → ∑ t ∈ Finset.range A.data.length, wcol A B i t * resid A V (E.full s) t =
      lam * (∑ t ∈ Finset.range A.data.length, wcol A B i t ^ 2) * ((E.full s).getD i 0 - (E.full p1).getD i 0) := by
  have hE := h.ok hs
  obtain ⟨hrl, hrt, G, hG, hGr⟩ := rows_grad h hs hV hD hp1 hrows
  obtain ⟨hal, halr, hale⟩ := alpha_eq h hn hrt
  have hfull : ∀ p, (E.full p).length = A.p0.length := fun p => by rw [E.full_length, h.p0]
  set nf := (freeIdx E.pmask).length with hnf
  set f : ℕ → ℕ := fun k => (freeIdx E.pmask).getD k 0 with hf
  have hmem : ∀ k < nf, f k < A.p0.length ∧ ¬ Fixed A (f k) := fun k hk => by
    have hm : f k ∈ freeIdx E.pmask := by rw [hf]; simp only; rw [List.getD_eq_getElem _ _ hk]; exact List.getElem_mem _
    obtain ⟨m1, m2⟩ := mem_freeIdx.1 hm
    have m3 : f k < A.p0.length := by rw [← h.mask_len]; exact m1
    refine ⟨m3, fun hfix => ?_⟩
    have := (getD_false_of_true m1).1 ((h.mask _ m3).2 hfix)
    exact this m2
  have hrB : ∀ k < nf, ∀ t < A.data.length, ent rows k t = B (f k) t := fun k hk t ht => by
    rw [hGr k (by rw [hrl]; exact hk) t ht, grad_eq hB hDB (hfull p1) hG (hmem k hk).1 (hmem k hk).2 ht]
  have hcl : E.pmask.countP id = nf := by rw [hnf, freeIdx_length]
  -- the right hand side
  have l0 : v.length = A.data.length := by rw [hv, hV.2]
  have e1 := bzip_length hdm (by rw [h.data, l0])
  have l1 : dm.length = A.data.length := by rw [e1]; simp [h.data, l0]
  have e2 := bzip_length hbeta (by rw [h.wgt.1, l1])
  have l2 : beta.length = A.data.length := by rw [e2]; simp [h.wgt.1, l1]
  have hbt := (normalEqs_ok hn).1
  have hbl : bt.length = nf := by rw [← hbt.length_eq, hrl]
  set ρ : List K → ℕ → K := fun q t => (A.data.getD t 0 - (V q).getD t 0) / elem1 A.errs t with hρ
  set g : ℕ → ℕ → K := fun i t => B i t / elem1 A.errs t with hg
  have hbk : ∀ k < nf, bt.getD k 0 = ∑ t ∈ Finset.range A.data.length, g (f k) t * ρ (E.full p1) t := fun k hk => by
    have hk' : k < rows.length := by rw [hrl]; exact hk
    have h1 := ((forall2_getD [] 0).1 hbt).2 k hk'
    have hrkl : (rows.getD k []).length = A.data.length := by rw [List.getD_eq_getElem _ _ hk']; exact hrt _ (List.getElem_mem _)
    unfold dot1 at h1
    rw [if_pos (by rw [hrkl, l2])] at h1
    rw [← Except.ok.inj h1, zipWith_sum _ _ _ (by rw [hrkl, l2]), hrkl]
    refine Finset.sum_congr rfl fun t ht => ?_
    rw [Finset.mem_range] at ht
    have := hrB k hk t ht
    unfold ent at this
    rw [this, e2, getD_zipWith2 _ _ _ t 0 0 _ (by rw [h.wgt.1]; exact ht) (by rw [l1]; exact ht), h.wgt.2 t ht, e1,
      getD_zipWith2 _ _ _ t 0 0 _ (by rw [h.data]; exact ht) (by rw [l0]; exact ht), h.data, hv]
    simp only [hρ, hg]
    ring
  -- the solution
  obtain ⟨d1, d2⟩ := damp_shape (lam := lam) (hal.trans hrl) (fun r hr => (halr r hr).trans hrl)
  obtain ⟨x1, x2⟩ := hso _ _ _ hx (by rw [d1]; exact d2) (by rw [d1, hbl])
  rw [d1] at x2
  have hxl : x.length = nf := by rw [x1, hbl]
  have e3 := bzip_length hsx (by rw [hp1, hxl, hcl])
  have hsl : s.length = E.pmask.countP id := by rw [e3]; simp [hp1, hxl, hcl]
  -- the full vectors
  set δ : ℕ → K := fun i => (E.full s).getD i 0 - (E.full p1).getD i 0 with hδ
  have hfix : ∀ p, ∀ i < A.p0.length, Fixed A i → (E.full p).getD i 0 = A.p0.getD i 0 := fun p i hi hfx => by
    unfold LmEnv.full
    rw [maskSet_false _ _ _ _ _ ((h.mask i hi).2 hfx), h.p0]
  have hδ0 : ∀ i < A.p0.length, Fixed A i → δ i = 0 := fun i hi hfx => by
    rw [hδ]; simp only; rw [hfix s i hi hfx, hfix p1 i hi hfx, sub_self]
  have hδf : ∀ k < nf, δ (f k) = x.getD k 0 := fun k hk => by
    rw [hδ, hf]
    simp only [LmEnv.full]
    rw [maskSet_getD_free 0 _ _ _ (by rw [h.mask_len, h.p0]) hsl k hk, maskSet_getD_free 0 _ _ _ (by rw [h.mask_len, h.p0]) hp1 k hk, e3,
      getD_zipWith2 _ _ _ k 0 0 _ (by omega) (by omega)]
    ring
  have hρu : ∀ (q q' : List K), q.length = A.p0.length → q'.length = A.p0.length → ∀ t < A.data.length,
      ρ q' t = ρ q t - ∑ i ∈ Finset.range A.p0.length, (q'.getD i 0 - q.getD i 0) * g i t := fun q q' hq hq' t ht => by
    simp only [hρ, hg]
    rw [hB q hq t ht, hB q' hq' t ht]
    have : ∑ i ∈ Finset.range A.p0.length, (q'.getD i 0 - q.getD i 0) * (B i t / elem1 A.errs t) =
        (∑ i ∈ Finset.range A.p0.length, B i t * q'.getD i 0 - ∑ i ∈ Finset.range A.p0.length, B i t * q.getD i 0) / elem1 A.errs t := by
      rw [← Finset.sum_sub_distrib, Finset.sum_div]
      exact Finset.sum_congr rfl fun i _ => by ring
    rw [this]
    ring
  refine ⟨hsl, fun i hi hfr => ?_⟩
  show ∑ t ∈ Finset.range A.data.length, g i t * ρ (E.full s) t = lam * (∑ t ∈ Finset.range A.data.length, g i t ^ 2) * δ i
  have hm : ¬ E.pmask.getD i true = false := fun h0 => hfr ((h.mask i hi).1 h0)
  obtain ⟨k, hk, hki⟩ := exists_freeIdx (by rw [h.mask_len]; exact hi) hm
  have hki' : f k = i := hki
  have hx2 := x2 k hk
  have hN : ∀ l < nf, ent al k l = ∑ t ∈ Finset.range A.data.length, g (f k) t * g (f l) t := fun l hl => by
    rw [hale k (by rw [hrl]; exact hk) l (by rw [hrl]; exact hl)]
    refine Finset.sum_congr rfl fun t ht => ?_
    rw [Finset.mem_range] at ht
    rw [hrB k hk t ht, hrB l hl t ht]
    simp only [hg]
    ring
  have hsum : ∑ l ∈ Finset.range nf, ent (damp al lam) k l * x.getD l 0 =
      ∑ j ∈ Finset.range A.p0.length, (∑ t ∈ Finset.range A.data.length, g i t * g j t) * δ j + lam * (∑ t ∈ Finset.range A.data.length, g i t ^ 2) * δ i := by
    have a1 : ∑ j ∈ Finset.range A.p0.length, (∑ t ∈ Finset.range A.data.length, g i t * g j t) * δ j =
        ∑ l ∈ Finset.range nf, (∑ t ∈ Finset.range A.data.length, g i t * g (f l) t) * δ (f l) := by
      rw [← h.mask_len]
      refine sum_freeIdx E.pmask _ fun j hj h0 => ?_
      rw [h.mask_len] at hj
      rw [hδ0 j hj ((h.mask j hj).1 h0), mul_zero]
    rw [a1, ← hki']
    have a2 : ∀ l ∈ Finset.range nf, ent (damp al lam) k l * x.getD l 0 =
        (∑ t ∈ Finset.range A.data.length, g (f k) t * g (f l) t) * δ (f l) + if k = l then lam * ent al k l * x.getD l 0 else 0 := fun l hl => by
      rw [Finset.mem_range] at hl
      rw [damp_ent (hal.trans hrl) (fun r hr => (halr r hr).trans hrl) hk hl, hδf l hl, hN l hl]
      split_ifs <;> ring
    rw [Finset.sum_congr rfl a2, Finset.sum_add_distrib, Finset.sum_ite_eq, if_pos (Finset.mem_range.2 hk), hδf k hk, hN k hk]
    congr 3
    exact Finset.sum_congr rfl fun t _ => by ring
  rw [hsum, hbk k hk, hki'] at hx2
  have hexp : ∑ t ∈ Finset.range A.data.length, g i t * ρ (E.full s) t =
      ∑ t ∈ Finset.range A.data.length, g i t * ρ (E.full p1) t - ∑ j ∈ Finset.range A.p0.length, (∑ t ∈ Finset.range A.data.length, g i t * g j t) * δ j := by
    have : ∑ j ∈ Finset.range A.p0.length, (∑ t ∈ Finset.range A.data.length, g i t * g j t) * δ j =
        ∑ t ∈ Finset.range A.data.length, g i t * ∑ j ∈ Finset.range A.p0.length, δ j * g j t := by
      simp only [Finset.sum_mul, Finset.mul_sum]
      rw [Finset.sum_comm]
      exact Finset.sum_congr rfl fun t _ => Finset.sum_congr rfl fun j _ => by ring
    rw [this, ← Finset.sum_sub_distrib]
    refine Finset.sum_congr rfl fun t ht => ?_
    rw [hρu (E.full p1) (E.full s) (hfull _) (hfull _) t (Finset.mem_range.1 ht)]
    ring
  rw [hexp, ← hx2]
  ring

/-- one step of the program -/
theorem step_ok (h : EnvOf A F solve E) (hs : SolveLen solve) (hso : SolveOK solve) (hV : PureF F V A.data.length)
    (hD : F.isgen = true → PureD F D A.data.length) (hB : LinearModel A V B c) (hDB : F.isgen = true → ∀ q i t, ent (D q) i t = B i t)
    (hmu : 0 < mu) (hc : Conditioned A B mu) {lam : K} (hlam : 0 ≤ lam)
    {p1 v dm beta x s bt : List K} {rows al : List (List K)} (hp1 : p1.length = E.pmask.countP id) (hv : v = V (E.full p1))
    (hdm : bzip (· - ·) E.data v = .ok dm) (hbeta : bzip (· * ·) E.wgt dm = .ok beta) (hrows : RowsAt E p1 rows) {isgen : Bool}
    (hn : normalEqs isgen E.wgt beta rows = .ok (bt, al)) (hx : solve (damp al lam) bt = .ok x) (hsx : bzip (· + ·) p1 x = .ok s) :
    StepOK A V (KeepsFixed A) mu lam (E.full p1) (E.full s) := by
  have hfull : ∀ p, (E.full p).length = A.p0.length := fun p => by rw [E.full_length, h.p0]
  set ρ : List K → ℕ → K := resid A V with hρ
  set g : ℕ → ℕ → K := wcol A B with hg
  set δ : ℕ → K := fun i => (E.full s).getD i 0 - (E.full p1).getD i 0 with hδ
  have hfix : ∀ p, ∀ i < A.p0.length, Fixed A i → (E.full p).getD i 0 = A.p0.getD i 0 := fun p i hi hfx => full_fixed h p hi hfx
  have hδ0 : ∀ i < A.p0.length, Fixed A i → δ i = 0 := fun i hi hfx => by
    rw [hδ]; simp only; rw [hfix s i hi hfx, hfix p1 i hi hfx, sub_self]
  have hρu : ∀ (q q' : List K), q.length = A.p0.length → q'.length = A.p0.length → ∀ t < A.data.length,
      ρ q' t = ρ q t - ∑ i ∈ Finset.range A.p0.length, (q'.getD i 0 - q.getD i 0) * g i t := fun q q' hq hq' t ht => resid_lin hB hq hq' ht
  have hchi : ∀ q, lmChisq A V q = ∑ t ∈ Finset.range A.data.length, ρ q t ^ 2 := fun q => rfl
  obtain ⟨key1, key2⟩ := step (np := A.p0.length) (N := A.data.length) (g := g) (ρ := ρ (E.full p1)) (ρ' := ρ (E.full s)) (δ := δ) (lam := lam)
    (free := fun i => ¬ Fixed A i) hlam (hρu _ _ (hfull _) (hfull _))
    (step_eqs h hs hso hV hD hB hDB hp1 hv hdm hbeta hrows hn hx hsx).2 (fun i hi hnf => hδ0 i hi (not_not.1 hnf))
  refine ⟨?_, fun u hu => ?_⟩
  · rw [hchi, hchi]
    have p1' : 0 ≤ ∑ t ∈ Finset.range A.data.length, (∑ i ∈ Finset.range A.p0.length, δ i * g i t) ^ 2 := Finset.sum_nonneg fun _ _ => sq_nonneg _
    have p2' : 0 ≤ ∑ i ∈ Finset.range A.p0.length, (∑ t ∈ Finset.range A.data.length, g i t ^ 2) * δ i ^ 2 :=
      Finset.sum_nonneg fun _ _ => mul_nonneg (Finset.sum_nonneg fun _ _ => sq_nonneg _) (sq_nonneg _)
    have := mul_nonneg hlam p2'
    linarith
  · have := key2 mu hmu (fun i => u.getD i 0 - (E.full s).getD i 0) (fun i hi hnf => by
      have hfx := not_not.1 hnf
      rw [hu.2 i hi hfx, hfix s i hi hfx, sub_self]) (by
      have := hc (fun i => u.getD i 0 - (E.full s).getD i 0) (fun i hi hfx => by
        rw [hu.2 i hi hfx, hfix s i hi hfx, sub_self])
      refine le_trans (le_of_eq ?_) (this.trans (le_of_eq ?_))
      · congr 1
        refine Finset.sum_congr rfl fun i _ => ?_
        rw [Finset.sum_mul]
        refine Finset.sum_congr rfl fun t _ => ?_
        simp only [hg, wcol]
        ring
      · refine Finset.sum_congr rfl fun t _ => ?_
        rw [Finset.sum_div]
        congr 1
        refine Finset.sum_congr rfl fun i _ => ?_
        simp only [hg, wcol]
        ring)
    rw [hchi, hchi, hchi]
    refine le_trans (le_of_eq ?_) this
    congr 1
    refine Finset.sum_congr rfl fun t ht => ?_
    rw [hρu (E.full s) u (hfull _) hu.1 t (Finset.mem_range.1 ht)]

/-- the inner loop accepts its first trial -/
theorem inner_lin (h : EnvOf A F solve E) (hs : SolveLen solve) (hV : PureF F V A.data.length) {U J : List K → Prop}
    (hJ : ∀ s, s.length = E.pmask.countP id → J (E.clip s))
    {alpha : List (List K)} {beta p1 : List K} {chi2p lam : K}
    (hp1 : p1.length = E.pmask.countP id) (hb : beta.length = E.pmask.countP id) (hc : chi2p = lmChisq A V (E.full p1)) (hne : chi2p ≠ 0)
    (hstep : ∀ x s, solve (damp alpha lam) beta = .ok x → bzip (· + ·) p1 x = .ok s → StepOK A V U mu lam (E.full p1) (E.full (E.clip s))) (fuel : ℕ) :
    Tri (fun _ => True) (E.inner alpha beta p1 chi2p fuel lam) (fun r => J r.1 ∧
      r.2.1 = lmChisq A V (E.full r.1) ∧ r.2.2.1 = lam ∧ StepOK A V U mu lam (E.full p1) (E.full r.1)) := by
  cases fuel with
  | zero => exact Tri.fail
  | succ fuel =>
    have hE := h.ok hs
    unfold LmEnv.inner
    refine Tri.bind (P := fun x => solve (damp alpha lam) beta = .ok x) (Tri.lift fun x hx => by rw [h.solve] at hx; exact hx) fun x hx => ?_
    have hxl : x.length = E.pmask.countP id := by rw [hs _ _ _ hx, hb]
    refine Tri.bind (P := fun s => bzip (· + ·) p1 x = .ok s) (Tri.lift fun s hs => hs) fun s hsx => ?_
    have hsl : s.length = E.pmask.countP id := by rw [bzip_length hsx (by rw [hp1, hxl])]; simp [hp1, hxl]
    have hst := hstep x s hx hsx
    refine Tri.bind (chi2At_tri (lmInv_true hE) (hE.clip_length hsl)) fun c' hc' => ?_
    obtain ⟨log, v, dm, w1, w, hv, h1, h2, h3, rfl⟩ := hc'
    rw [h.F, hV.1] at hv
    have hv := (Except.ok.inj hv).symm
    have hw := chi_eq h hv (by rw [hv, hV.2]) h1 h2 h3
    refine Tri.ite (fun _ => Tri.ret ⟨hJ s hsl, hw, rfl, hst⟩) fun hno => ?_
    exfalso
    apply hno
    left
    have hle := hst.1
    have hn : 0 ≤ chi2p := by rw [hc]; exact lmChisq_nonneg A V _
    have hpos : 0 < chi2p := lt_of_le_of_ne hn (Ne.symm hne)
    rw [← hw, ← hc] at hle
    linarith

/-- when the main loop is entered -/
structure LinIn (A : LmArgs K) (V : List K → List K) (E : LmEnv K) (U J : List K → Prop) (mu : K) (st : LmState K) : Prop where
  inv : J st.p
  zero : st.niter = 0 → E.full st.p = A.p0
  pos : st.niter ≠ 0 → st.chi2 = lmChisq A V (E.full st.p)
  le : lmChisq A V (E.full st.p) ≤ lmChisq A V A.p0
  lam : st.lam = A.cfg.lambda0 / A.cfg.gain ^ st.niter
  err : ∀ u, U u → lmChisq A V (E.full st.p) - lmChisq A V u ≤
    (A.cfg.lambda0 / (2 * mu + A.cfg.lambda0)) ^ st.niter * lmChisq A V A.p0
  warned : st.warned = false

/-- and when it is left -/
structure LinEnd (A : LmArgs K) (V : List K → List K) (U : List K → Prop) (mu : K) (q : List K) (lam : K) (niter : ℕ) (warned : Bool) : Prop where
  fast : warned = false → lam = A.cfg.lambda0 / A.cfg.gain ^ niter ∧ ∀ u, U u →
    lmChisq A V q - lmChisq A V u ≤ lam * A.cfg.tol / (2 * mu) * lmChisq A V A.p0
  slow : warned = true → ∀ u, U u →
    lmChisq A V q - lmChisq A V u ≤ (A.cfg.lambda0 / (2 * mu + A.cfg.lambda0)) ^ A.cfg.itmax * lmChisq A V A.p0

theorem clip_none (h : EnvOf A F solve E) (hmin : A.pmin = none) (hmax : A.pmax = none) (s : List K) : E.clip s = s := by
  have e1 : E.pmin = none := by
    rcases h.pmin with h1 | ⟨a, b, h1, -⟩
    · exact h1.2
    · rw [hmin] at h1; cases h1
  have e2 : E.pmax = none := by
    rcases h.pmax with h1 | ⟨a, b, h1, -⟩
    · exact h1.2
    · rw [hmax] at h1; cases h1
  unfold LmEnv.clip
  rw [e1, e2]

theorem outer_lin (h : EnvOf A F solve E) (hs : SolveLen solve) (hV : PureF F V A.data.length) {U J : List K → Prop}
    (hJl : ∀ p, J p → p.length = E.pmask.countP id) (hJ : ∀ s, s.length = E.pmask.countP id → J (E.clip s))
    (hStep : ∀ {lam : K}, 0 ≤ lam → ∀ {p1 v dm beta x s bt : List K} {rows al : List (List K)}, J p1 → v = V (E.full p1) →
      bzip (· - ·) E.data v = .ok dm → bzip (· * ·) E.wgt dm = .ok beta → RowsAt E p1 rows → normalEqs E.F.isgen E.wgt beta rows = .ok (bt, al) →
      solve (damp al lam) bt = .ok x → bzip (· + ·) p1 x = .ok s → StepOK A V U mu lam (E.full p1) (E.full (E.clip s)))
    (hmu : 0 < mu) (hl0 : 0 < A.cfg.lambda0) (hgain : 1 < A.cfg.gain) (htol : 0 ≤ A.cfg.tol) (inFuel : ℕ) : ∀ fuel st, LinIn A V E U J mu st →
    Tri (fun _ => True) (E.outer inFuel fuel st) (fun st => LinEnd A V U mu (E.full st.p) st.lam st.niter st.warned)
  | 0, st, _ => Tri.fail
  | fuel + 1, st, hst => by
    have hE := h.ok hs
    have hgp : ∀ n, (0:K) < A.cfg.gain ^ n := fun n => pow_pos (by linarith) n
    have hlam0 : 0 < st.lam := by rw [hst.lam]; exact div_pos hl0 (hgp _)
    have hlamle : st.lam ≤ A.cfg.lambda0 := by
      rw [hst.lam, div_le_iff₀ (hgp _)]
      have : (1 : K) ≤ A.cfg.gain ^ st.niter := one_le_pow₀ hgain.le
      nlinarith
    unfold LmEnv.outer
    refine Tri.bind (Tri.and (g_tri hE (lmInv_true hE) (hJl _ hst.inv)) (g_rows st.p)) fun gv hgv => ?_
    obtain ⟨⟨hgl, log, hgv⟩, hrows⟩ := hgv
    rw [h.F, hV.1] at hgv
    have hgv := (Except.ok.inj hgv).symm
    refine Tri.bind (P := fun dm => bzip (· - ·) E.data gv.1 = .ok dm) (Tri.lift fun _ h => h) fun dm hdm => ?_
    refine Tri.bind (P := fun b => bzip (· * ·) E.wgt dm = .ok b) (Tri.lift fun _ h => h) fun beta hbeta => ?_
    refine Tri.bind (P := fun c => bzip (· * ·) beta dm = .ok c) (Tri.lift fun _ h => h) fun cc hcc => ?_
    have hcs : cc.sum = lmChisq A V (E.full st.p) := chi_eq h hgv (by rw [hgv, hV.2]) hdm hbeta hcc
    have hchi : (if st.niter = 0 then cc.sum else st.chi2) = lmChisq A V (E.full st.p) := by
      split_ifs with h0
      · exact hcs
      · exact hst.pos h0
    simp only [hchi]
    refine Tri.bind (P := fun ba => normalEqs E.F.isgen E.wgt beta gv.2 = .ok ba) (Tri.lift fun ba hba => hba) fun ba hba => ?_
    have hbal : ba.1.length = E.pmask.countP id := by rw [← (normalEqs_ok hba).1.length_eq, hgl]
    have hS0 := lmChisq_nonneg A V A.p0
    refine Tri.ite (fun h0 => Tri.ret ⟨fun _ => ⟨hst.lam, fun u _ => ?_⟩, fun hw => ?_⟩) fun hne => ?_
    · simp only
      rw [h0]
      have := lmChisq_nonneg A V u
      have h2 : 0 ≤ st.lam * A.cfg.tol / (2 * mu) * lmChisq A V A.p0 := mul_nonneg (div_nonneg (mul_nonneg hlam0.le htol) (by linarith)) hS0
      linarith
    · simp only at hw
      rw [hst.warned] at hw; cases hw
    refine Tri.bind (inner_lin (mu := mu) h hs hV hJ (hJl _ hst.inv) hbal rfl hne (fun x s hx hsx =>
      hStep hlam0.le hst.inv hgv hdm hbeta hrows (bt := ba.1) (al := ba.2) hba hx hsx) _) fun r hr => ?_
    obtain ⟨hr1, hr2, hr3, hr4, hr5⟩ := hr
    set S := lmChisq A V (E.full st.p) with hS
    set S' := lmChisq A V (E.full r.1) with hS'
    have hSn : 0 < S := lt_of_le_of_ne (lmChisq_nonneg A V _) (Ne.symm hne)
    have hSn' : 0 ≤ S' := lmChisq_nonneg A V _
    refine Tri.ite (fun hconv => Tri.ret ⟨fun _ => ⟨by simp only; rw [hr3]; exact hst.lam, fun u hu => ?_⟩, fun hw => ?_⟩) fun hconv => ?_
    · simp only
      rw [hr3]
      have h5 := hr5 u hu
      rw [hr2, h.cfg] at hconv
      have h6 : S - S' ≤ A.cfg.tol / 2 * (S + S') := by
        have : (S - S') / (S + S') ≤ A.cfg.tol / 2 := by linarith
        rwa [div_le_iff₀ (by linarith)] at this
      have h7 : S + S' ≤ 2 * lmChisq A V A.p0 := by have := hst.le; linarith
      have h8 : 0 ≤ st.lam / (2 * mu) := div_nonneg hlam0.le (by linarith)
      calc S' - lmChisq A V u ≤ st.lam / (2 * mu) * (S - S') := h5
        _ ≤ st.lam / (2 * mu) * (A.cfg.tol / 2 * (2 * lmChisq A V A.p0)) :=
          mul_le_mul_of_nonneg_left (h6.trans (mul_le_mul_of_nonneg_left h7 (by linarith))) h8
        _ = st.lam * A.cfg.tol / (2 * mu) * lmChisq A V A.p0 := by ring
    · simp only at hw
      rw [hst.warned] at hw; cases hw
    have herr : ∀ u, U u → S' - lmChisq A V u ≤ (A.cfg.lambda0 / (2 * mu + A.cfg.lambda0)) ^ (st.niter + 1) * lmChisq A V A.p0 := by
      intro u hu
      have h5 := hr5 u hu
      have h6 := hst.err u hu
      set T := (A.cfg.lambda0 / (2 * mu + A.cfg.lambda0)) ^ st.niter * lmChisq A V A.p0 with hT
      have hT0 : 0 ≤ T := mul_nonneg (pow_nonneg (div_nonneg hl0.le (by linarith)) _) hS0
      have h7 : (S' - lmChisq A V u) * (2 * mu + st.lam) ≤ st.lam * T := by
        have e : st.lam / (2 * mu) * (S - S') = st.lam * (S - S') / (2 * mu) := by ring
        rw [e, le_div_iff₀ (by linarith)] at h5
        nlinarith
      have h8 : S' - lmChisq A V u ≤ st.lam / (2 * mu + st.lam) * T := by
        rw [div_mul_eq_mul_div, le_div_iff₀ (by linarith)]; exact h7
      have h9 : st.lam / (2 * mu + st.lam) ≤ A.cfg.lambda0 / (2 * mu + A.cfg.lambda0) := by
        rw [div_le_div_iff₀ (by linarith) (by linarith)]
        nlinarith
      calc S' - lmChisq A V u ≤ st.lam / (2 * mu + st.lam) * T := h8
        _ ≤ A.cfg.lambda0 / (2 * mu + A.cfg.lambda0) * T := mul_le_mul_of_nonneg_right h9 hT0
        _ = _ := by rw [hT, pow_succ]; ring
    refine Tri.ite (fun hit => Tri.ret ⟨fun hw => (by cases hw), fun _ u hu => ?_⟩) fun _ => ?_
    · simp only
      refine (herr u hu).trans (mul_le_mul_of_nonneg_right ?_ hS0)
      rw [h.cfg] at hit
      exact pow_le_pow_of_le_one (div_nonneg hl0.le (by linarith)) (by rw [div_le_one (by linarith)]; linarith) hit
    refine outer_lin h hs hV hJl hJ hStep hmu hl0 hgain htol inFuel fuel _
      ⟨hr1, fun h0 => absurd h0 (Nat.succ_ne_zero _), fun _ => hr2, hr4.trans hst.le, ?_, herr, hst.warned⟩
    simp only
    rw [hr3, hst.lam, h.cfg, pow_succ, div_div]

end

end LinAux

open LinAux
section
variable {A : LmArgs K} {F : UserF K} {solve : List (List K) → List K → Except PyErr (List K)}
  {V : List K → List K} {D : List K → List (List K)} {B : ℕ → ℕ → K} {c : ℕ → K} {mu : K}

/-- **C112.**  For a model linear in the parameters (a plain function, or a generator which yields the partial derivatives `B`), without bounds, with any
fixed parameters, data, errors, `p0` and configuration with `gain > 1`, `lambda0 > 0`, `tol ≥ 0`: the `chi2` of the parameters returned exceeds that of any
other parameters `u` (with the same fixed ones) by at most `lamda*tol/(2 mu)` times the initial `chi2`, where `lamda = lambda0/gain**niter` is reported in
`info`; when the iteration limit was hit, by at most `(lambda0/(2 mu + lambda0))**itmax` times the initial one. -/
theorem C112_linear_model (hs : SolveLen solve) (hso : SolveOK solve) (hV : PureF F V A.data.length)
    (hD : F.isgen = true → PureD F D A.data.length) (hB : LinearModel A V B c) (hDB : F.isgen = true → ∀ q i t, ent (D q) i t = B i t)
    (hmin : A.pmin = none) (hmax : A.pmax = none) (hmu : 0 < mu) (hc : Conditioned A B mu) (hl0 : 0 < A.cfg.lambda0) (hgain : 1 < A.cfg.gain)
    (htol : 0 ≤ A.cfg.tol) {inv : List (List K) → Except PyErr (List (List K))} {fo fi : ℕ} {r : LmFit K}
    (hr : (levmar A F solve inv fo fi).1 = .ok r) {u : List K} (hu : KeepsFixed A u) :
    (r.warned = false → r.lamda = A.cfg.lambda0 / A.cfg.gain ^ r.niter ∧
      lmChisq A V r.p ≤ lmChisq A V u + r.lamda * A.cfg.tol / (2 * mu) * lmChisq A V A.p0) ∧
    (r.warned = true →
      lmChisq A V r.p ≤ lmChisq A V u + (A.cfg.lambda0 / (2 * mu + A.cfg.lambda0)) ^ A.cfg.itmax * lmChisq A V A.p0) := by
  have key : LinEnd A V (KeepsFixed A) mu r.p r.lamda r.niter r.warned := by
    refine levmar_post (Q := fun r => LinEnd A V (KeepsFixed A) mu r.p r.lamda r.niter r.warned) (fun E hE => ?_) hr
    have h := env_ok hE
    have hp := pathOK_init (V := V) h
    refine ⟨_, outer_lin (mu := mu) h hs hV (U := KeepsFixed A) (J := fun p => p.length = E.pmask.countP id) (fun _ h => h)
      (fun s hl => (h.ok hs).clip_length hl) (fun hlam _ _ _ _ _ _ _ _ _ hp1 hv hdm hbeta hrows hn hx hsx => by
        rw [clip_none h hmin hmax]
        exact step_ok h hs hso hV hD hB hDB hmu hc hlam hp1 hv hdm hbeta hrows hn hx hsx) hmu hl0 hgain htol fi fo E.init
      ⟨hp.len, fun h0 => (hp.zero h0).2, fun h0 => absurd rfl h0, by rw [(hp.zero rfl).2], ?_, fun u _ => ?_, rfl⟩, fun st r hst hfin => ?_⟩
    · show E.cfg.lambda0 = _
      rw [h.cfg]; simp [LmEnv.init]
    · rw [(hp.zero rfl).2]
      have := lmChisq_nonneg A V u
      simp [LmEnv.init, this]
    · unfold LmEnv.finish at hfin
      simp only [bind, Except.bind, pure, Except.pure] at hfin
      split at hfin
      · cases hfin
      · rw [← Except.ok.inj hfin]
        exact hst
  refine ⟨fun hw => ⟨(key.fast hw).1, ?_⟩, fun hw => ?_⟩
  · have := (key.fast hw).2 u hu
    linarith
  · have := key.slow hw u hu
    linarith

end

/-! ### a concrete case -/

theorem solve2_ok : SolveOK (solve2 (K := K)) := by
  intro M b x h _ _
  unfold solve2 at h
  split at h
  · rename_i a y
    split_ifs at h with ha
    cases h
    refine ⟨rfl, fun i hi => ?_⟩
    simp only [List.length_cons, List.length_nil, zero_add, Nat.lt_one_iff] at hi
    subst hi
    simp [ent, mul_div_cancel₀ _ ha]
  · rename_i a b c d y z _ _
    split_ifs at h with ha
    cases h
    refine ⟨rfl, fun i hi => ?_⟩
    simp only [List.length_cons, List.length_nil, zero_add, Nat.reduceAdd] at hi ⊢
    interval_cases i <;> simp only [ent, Finset.sum_range_succ, Finset.sum_range_zero, List.getD_cons_zero, List.getD_cons_succ, zero_add] <;>
      rw [← mul_div_assoc, ← mul_div_assoc, ← add_div, div_eq_iff ha] <;> ring
  · cases h

/-- `p0 + p1*[0, 1, -1] + p2` -/
def linFun (p : List ℚ) : List ℚ :=
  [p.getD 0 0 + p.getD 2 0, p.getD 0 0 + p.getD 1 0 + p.getD 2 0, p.getD 0 0 - p.getD 1 0 + p.getD 2 0]

/-- the plain Python function -/
def linUser : UserF ℚ := ⟨false, fun _ p => .ok (linFun p), fun _ _ => .error .typeError⟩

/-- fitted to `[2, 5, 1]` with error 2 and `p2` fixed (it could not be told from `p0`) -/
def linArgs : LmArgs ℚ where
  data := [2, 5, 1]
  errs := [2]
  p0 := [0, 0, 1]
  pfix := some [2]
  cfg := { exCfg with itmax := 5 }

/-- the coefficients of the parameters -/
def linB (i t : ℕ) : ℚ := if i = 1 then [0, 1, -1].getD t 0 else 1

example : PureF linUser linFun linArgs.data.length := ⟨fun _ _ => rfl, fun _ => rfl⟩

example : LinearModel linArgs linFun linB 0 := by
  intro q _ t ht
  simp only [linArgs, List.length_cons, List.length_nil] at ht ⊢
  interval_cases t <;> simp [linFun, linB, Finset.sum_range_succ] <;> ring

example : Conditioned linArgs linB 1 := by
  intro u hu
  have h2 : u 2 = 0 := hu 2 (by decide) ⟨_, rfl, 2, by simp, Or.inl rfl⟩
  simp only [linArgs, List.length_cons, List.length_nil, Finset.sum_range_succ, Finset.sum_range_zero, linB, elem1, h2]
  simp
  apply le_of_eq
  ring

example : linArgs.pmin = none ∧ linArgs.pmax = none ∧ 0 < linArgs.cfg.lambda0 ∧ 1 < linArgs.cfg.gain ∧ 0 ≤ linArgs.cfg.tol ∧
    KeepsFixed linArgs [5 / 3, 2, 1] := by
  refine ⟨rfl, rfl, by decide +kernel, by decide +kernel, by decide +kernel, rfl, ?_⟩
  rintro i hi ⟨l, hl, k, hk, h⟩
  cases hl
  simp only [List.mem_singleton] at hk
  subst hk
  simp only [linArgs, List.length_cons, List.length_nil] at hi h
  interval_cases i <;> first | rfl | (exfalso; revert h; decide)

/-- the best parameters are `[5/3, 2, 1]` -/
example : (levmar linArgs linUser solve2 inv2 9 9).1.toOption.map (fun r => (r.p, r.niter, r.warned, r.lamda)) =
    some ([764 / 459, 1528 / 765, 1], 2, false, 1 / 16) := by decide +kernel

end Npplus
