import Verif.Props.SplfitOk

/-!
# C35: the cost is (minus) the sensitivity of the optimal chi2; examples for C33-C35
-/

set_option linter.unusedSectionVars false

namespace Npplus
open Spec Finset Fit

variable {K : Type} [Field K] [LinearOrder K] [IsStrictOrderedRing K] [FloorRing K] {m : ℕ}
  {S : Scipy K} {xk x : List K} {y : List (Fin m → K)}
  {sigy : Option (List (Fin m → K))} {n : ℕ} {ncArg : Option ℤ} {lo hi : List (Fin m → K)} {per : Bool}
  {extrap : Option (ℕ × ℕ)} {out : SplineOut K (Fin m → K)} {cost : Cost K m}

theorem getD_map_apply (l : List (Fin m → K)) (i : Fin m) (k : ℕ) : (l.map (· i)).getD k 0 = l.getD k 0 i := by
  rcases Nat.lt_or_ge k l.length with h | h
  · rw [List.getD_eq_getElem _ _ (by simpa using h), List.getD_eq_getElem _ _ h]; simp
  · rw [List.getD_eq_default _ _ (by simpa using h), List.getD_eq_default _ _ h]; rfl

theorem taylorCoeff_apply (l : List (Fin m → K)) (w : K) (k : ℕ) (i : Fin m) :
    taylorCoeff l w k i = taylorCoeff (l.map (· i)) w k := by
  unfold taylorCoeff
  rw [Finset.sum_apply, List.length_map]
  exact sum_congr rfl fun q _ => by rw [getD_map_apply]; rfl

/-- Independence of the constraints, for several components. -/
theorem independent_vec {xk' : List K} (hs : xk'.Pairwise (· < ·)) (h2 : 2 ≤ xk'.length) {n nc : ℕ} (hnc : nc < n)
    (a : ℕ → ℕ → Fin m → K) (l h : List (Fin m → K)) (hlh : l.length + h.length ≤ n + 1) : ∃ C : ℕ → List (Fin m → K),
      (∀ j, j + 1 < xk'.length → (C j).length = n + 1) ∧
      (∀ j, j + 2 < xk'.length → ∀ k ≤ nc, jump xk' C j k = a j k) ∧ EndValues xk' C l h := by
  have := fun i => C34_independent hs h2 hnc (fun j k => a j k i) (l.map (· i)) (h.map (· i)) (by simpa using hlh)
  choose D d1 d2 d3 using this
  set C : ℕ → List (Fin m → K) := fun j => (List.range (n + 1)).map fun q i => (D i j).getD q 0 with hC
  have hCl : ∀ j, (C j).length = n + 1 := fun j => by simp [hC]
  have hCm : ∀ i j, j + 1 < xk'.length → (C j).map (· i) = D i j := by
    intro i j hj
    refine List.ext_getElem (by rw [List.length_map, hCl, d1 i j hj]) fun q h1 h2 => ?_
    simp only [hC, List.map_map, List.getElem_map, List.getElem_range, Function.comp]
    exact List.getD_eq_getElem _ _ h2
  have hCg : ∀ i j k, j + 1 < xk'.length → (C j).getD k 0 i = (D i j).getD k 0 := by
    intro i j k hj
    rw [← getD_map_apply, hCm i j hj]
  have hCr : ∀ i j k, j + 1 < xk'.length → rightCoeff xk' C j k i = rightCoeff xk' (D i) j k := by
    intro i j k hj
    unfold rightCoeff
    rw [taylorCoeff_apply, hCm i j hj]
  refine ⟨C, fun j _ => hCl j, ?_, ?_, ?_⟩
  · intro j hj k hk
    funext i
    have := d2 i j hj k hk
    unfold jump at this ⊢
    rw [Pi.sub_apply, hCg i _ k (by omega), hCr i j k (by omega), this]
  · intro k hk
    funext i
    rw [hCg i 0 k (by omega), (d3 i).1 k (by simpa using hk), getD_map_apply]
  · intro k hk
    funext i
    rw [hCr i _ k (by omega), (d3 i).2 k (by simpa using hk), getD_map_apply]

/-- **C35** (partial: with the opposite sign to the documentation, `C35_sign_refuted`; periodic fits separately) —
`-cost` is the derivative of the *optimal* `chi2` with respect to the jumps and the end values.  For every direction (`a`: the jumps
of the coefficients at the interior knots, `bl`, `bh`: changes of the end values) there is `A` such that for every `ε`
the minimum of `chi2` over the piecewise polynomials with the jumps `ε a` and the end values `lo + ε bl`, `hi + ε bh` is
between `chi2(fit) - ε D` and `chi2(fit) - ε D + A ε²`, with
`D = Σ cost[k][j]·a[j][k] + Σ cost_lo[k]·bl[k] + Σ cost_hi[k]·(-bh[k])`.  (Moving the coefficient at the first knot
from `lo` to `lo + ε bl` is a jump of `ε bl` there; moving it at the last knot from `hi` to `hi + ε bh` is a jump of
`-ε bh`, for increasing `x`.) -/
theorem C35_sensitivity_partial (hS : ScipyOK S) (hs : xk.Pairwise (· < ·)) (hlh : lo.length + hi.length ≤ n + 1)
    (h : splfit S xk x y sigy n ncArg lo hi false extrap = .ok (out, cost)) :
    ∃ p xk' nc, out = .pw p ∧ FitKnots xk x xk' ∧ (ncArg = none ∧ nc + 1 = n ∨ ncArg = some (nc : ℤ)) ∧
    ∀ (a : ℕ → ℕ → Fin m → K) (bl bh : List (Fin m → K)), bl.length = lo.length → bh.length = hi.length →
    ∃ A, ∀ ε : K,
      (∀ C g, IsPwOn xk' n C g → (∀ j, j + 2 < xk'.length → ∀ k ≤ nc, jump xk' C j k = ε • a j k) →
        EndValues xk' C ((List.range lo.length).map fun k => lo.getD k 0 + ε • bl.getD k 0)
          ((List.range hi.length).map fun k => hi.getD k 0 + ε • bh.getD k 0) →
        chi2 x y (sigy.getD (y.map fun _ _ => 1)) p.call - ε *
          (∑ j ∈ range (xk'.length - 2), ∑ k ∈ range (nc + 1), ∑ i, (cost.inner.getD k []).getD j 0 i * a j k i +
            ∑ k ∈ range lo.length, ∑ i, cost.lo.getD k 0 i * bl.getD k 0 i +
            ∑ k ∈ range hi.length, ∑ i, cost.hi.getD k 0 i * -(bh.getD k 0 i)) ≤
          chi2 x y (sigy.getD (y.map fun _ _ => 1)) g) ∧
      ∃ C g, IsPwOn xk' n C g ∧ (∀ j, j + 2 < xk'.length → ∀ k ≤ nc, jump xk' C j k = ε • a j k) ∧
        EndValues xk' C ((List.range lo.length).map fun k => lo.getD k 0 + ε • bl.getD k 0)
          ((List.range hi.length).map fun k => hi.getD k 0 + ε • bh.getD k 0) ∧
        chi2 x y (sigy.getD (y.map fun _ _ => 1)) g ≤ chi2 x y (sigy.getD (y.map fun _ _ => 1)) p.call - ε *
          (∑ j ∈ range (xk'.length - 2), ∑ k ∈ range (nc + 1), ∑ i, (cost.inner.getD k []).getD j 0 i * a j k i +
            ∑ k ∈ range lo.length, ∑ i, cost.lo.getD k 0 i * bl.getD k 0 i +
            ∑ k ∈ range hi.length, ∑ i, cost.hi.getD k 0 i * -(bh.getD k 0 i)) + A * ε ^ 2 := by
  obtain ⟨s, nc0, z0, hset, -, -, hor0, hnc0, -⟩ := splfit_ok h
  obtain ⟨h2, e1, e2, e3, -, hnp⟩ := setup_ok hset hs
  obtain ⟨hx, esx, hfk0, h2', -, -⟩ := hnp rfl
  obtain ⟨p, xk', nc, hout, hfk, hor, ⟨Cp, hpw, hsm, hend⟩, -, -, -, -, key⟩ := C35_cost_partial hS hs h
  obtain rfl := hfk0.unique hfk
  have hnc : nc < n := by
    rcases hor with ⟨-, h⟩ | h
    · omega
    · rcases hor0 with ⟨h', -⟩ | h'
      · rw [h] at h'; cases h'
      · rw [h] at h'; simp at h'; omega
  have hne : xk ≠ [] := by intro h0; rw [h0] at h2; simp at h2
  have hmem : ∀ t < x.length, x.getD t 0 ∈ x := by
    intro t ht; rw [List.getD_eq_getElem _ _ ht]; exact List.getElem_mem _
  have hr : ∀ t < x.length, s.xk.getD 0 0 ≤ x.getD t 0 ∧ x.getD t 0 ≤ s.xk.getD (s.xk.length - 1) 0 :=
    fun t ht => fitKnots_range hfk hne hx (hmem t ht)
  refine ⟨p, s.xk, nc, hout, hfk, hor, fun a bl bh hbl hbh => ?_⟩
  have gr : ∀ (ε : K) (u v : List (Fin m → K)) k, k < u.length → ((List.range u.length).map fun k => u.getD k 0 + ε • v.getD k 0).getD k 0 = u.getD k 0 + ε • v.getD k 0 := by
    intro ε u v k hk
    rw [List.getD_eq_getElem _ _ (by simpa using hk)]; simp
  -- the linear part, for every competitor
  have key2 : ∀ (ε : K) C g, IsPwOn s.xk n C g → (∀ j, j + 2 < s.xk.length → ∀ k ≤ nc, jump s.xk C j k = ε • a j k) →
        EndValues s.xk C ((List.range lo.length).map fun k => lo.getD k 0 + ε • bl.getD k 0)
          ((List.range hi.length).map fun k => hi.getD k 0 + ε • bh.getD k 0) →
        chi2 x y (sigy.getD (y.map fun _ _ => 1)) g = chi2 x y (sigy.getD (y.map fun _ _ => 1)) p.call - ε *
          (∑ j ∈ range (s.xk.length - 2), ∑ k ∈ range (nc + 1), ∑ i, (cost.inner.getD k []).getD j 0 i * a j k i +
            ∑ k ∈ range lo.length, ∑ i, cost.lo.getD k 0 i * bl.getD k 0 i +
            ∑ k ∈ range hi.length, ∑ i, cost.hi.getD k 0 i * -(bh.getD k 0 i)) +
          ∑ t ∈ range x.length, ∑ i, ((g (x.getD t 0) i - p.call (x.getD t 0) i) / (sigy.getD (y.map fun _ _ => 1)).getD t 0 i) ^ 2 := by
    intro ε C g hg hj hE
    rw [key C g hg]
    have t1 : ∑ j ∈ range (s.xk.length - 2), ∑ k ∈ range (nc + 1), ∑ i, (cost.inner.getD k []).getD j 0 i * jump s.xk C j k i =
        ε * ∑ j ∈ range (s.xk.length - 2), ∑ k ∈ range (nc + 1), ∑ i, (cost.inner.getD k []).getD j 0 i * a j k i := by
      simp only [mul_sum]
      refine sum_congr rfl fun j hj' => sum_congr rfl fun k hk' => sum_congr rfl fun i _ => ?_
      have := mem_range.mp hj'
      have := mem_range.mp hk'
      rw [hj j (by omega) k (by omega), Pi.smul_apply, smul_eq_mul]; ring
    have t2 : ∑ k ∈ range lo.length, ∑ i, cost.lo.getD k 0 i * ((C 0).getD k 0 i - lo.getD k 0 i) =
        ε * ∑ k ∈ range lo.length, ∑ i, cost.lo.getD k 0 i * bl.getD k 0 i := by
      simp only [mul_sum]
      refine sum_congr rfl fun k hk' => sum_congr rfl fun i _ => ?_
      have hk' := mem_range.mp hk'
      rw [hE.1 k (by simpa using hk'), gr ε lo bl k hk', Pi.add_apply, Pi.smul_apply, smul_eq_mul]; ring
    have t3 : ∑ k ∈ range hi.length, ∑ i, cost.hi.getD k 0 i * (hi.getD k 0 i - rightCoeff s.xk C (s.xk.length - 2) k i) =
        ε * ∑ k ∈ range hi.length, ∑ i, cost.hi.getD k 0 i * -(bh.getD k 0 i) := by
      simp only [mul_sum]
      refine sum_congr rfl fun k hk' => sum_congr rfl fun i _ => ?_
      have hk' := mem_range.mp hk'
      rw [hE.2 k (by simpa using hk'), gr ε hi bh k hk', Pi.add_apply, Pi.smul_apply, smul_eq_mul]; ring
    rw [t1, t2, t3]
    ring
  obtain ⟨H, hHl, hHj, hHE⟩ := independent_vec hfk.inc h2' hnc a bl bh (by omega)
  refine ⟨∑ t ∈ range x.length, ∑ i, (polyVal (H (index s.xk (x.getD t 0))) (x.getD t 0 - s.xk.getD (index s.xk (x.getD t 0)) 0) i /
    (sigy.getD (y.map fun _ _ => 1)).getD t 0 i) ^ 2, fun ε => ⟨fun C g hg hj hE => ?_, ?_⟩⟩
  · rw [key2 ε C g hg hj hE]
    exact le_add_of_nonneg_right (sum_nonneg fun t _ => sum_nonneg fun i _ => sq_nonneg _)
  · set G : ℕ → List (Fin m → K) := fun j => (List.range (n + 1)).map fun q => (Cp j).getD q 0 + ε • (H j).getD q 0 with hG
    have hGl : ∀ j, (G j).length = n + 1 := fun j => by simp [hG]
    have hGg : ∀ j k, j + 1 < s.xk.length → (G j).getD k 0 = (Cp j).getD k 0 + ε • (H j).getD k 0 := by
      intro j k hj
      rcases Nat.lt_or_ge k (n + 1) with h | h
      · rw [List.getD_eq_getElem _ _ (by rw [hGl]; exact h)]; simp [hG]
      · rw [List.getD_eq_default _ _ (by rw [hGl]; exact h), List.getD_eq_default _ _ (by rw [(hpw j hj).1]; exact h),
          List.getD_eq_default _ _ (by rw [hHl j hj]; exact h)]
        simp
    have hGt : ∀ (j : ℕ) (w : K) (k : ℕ), j + 1 < s.xk.length → taylorCoeff (G j) w k = taylorCoeff (Cp j) w k + ε • taylorCoeff (H j) w k := by
      intro j w k hj
      unfold taylorCoeff
      rw [hGl, (hpw j hj).1, hHl j hj, smul_sum, ← sum_add_distrib]
      refine sum_congr rfl fun q _ => ?_
      rw [hGg j q hj, smul_add, smul_comm]
    have hGp : ∀ (j : ℕ) (t : K), j + 1 < s.xk.length → polyVal (G j) t = polyVal (Cp j) t + ε • polyVal (H j) t := by
      intro j t hj
      unfold polyVal
      rw [hGl, (hpw j hj).1, hHl j hj, smul_sum, ← sum_add_distrib]
      refine sum_congr rfl fun q _ => ?_
      rw [hGg j q hj, smul_add, smul_comm]
    have hGpw : IsPwOn s.xk n G (pwFun s.xk G) := pwFun_isPwOn hfk.inc fun j _ => hGl j
    have hGj : ∀ j, j + 2 < s.xk.length → ∀ k ≤ nc, jump s.xk G j k = ε • a j k := by
      intro j hj k hk
      have e1 := hsm j hj k hk
      have e2 := hHj j hj k hk
      unfold jump rightCoeff at e1 e2 ⊢
      rw [hGg _ k (by omega), hGt _ _ k (by omega), ← e2, add_sub_add_comm, e1, zero_add, smul_sub]
    have hGE : EndValues s.xk G ((List.range lo.length).map fun k => lo.getD k 0 + ε • bl.getD k 0)
          ((List.range hi.length).map fun k => hi.getD k 0 + ε • bh.getD k 0) := by
      constructor
      · intro k hk
        have hk : k < lo.length := by simpa using hk
        rw [gr ε lo bl k hk, hGg _ k (by omega), hend.1 k hk, hHE.1 k (by omega)]
      · intro k hk
        have hk : k < hi.length := by simpa using hk
        have e1 := hend.2 k hk
        have e2 := hHE.2 k (by omega)
        unfold rightCoeff at e1 e2 ⊢
        rw [gr ε hi bh k hk, hGt _ _ k (by omega), e1, e2]
    refine ⟨G, pwFun s.xk G, hGpw, hGj, hGE, le_of_eq ?_⟩
    rw [key2 ε G _ hGpw hGj hGE]
    congr 1
    rw [sum_mul]
    refine sum_congr rfl fun t ht => ?_
    rw [sum_mul]
    refine sum_congr rfl fun i _ => ?_
    have ht := mem_range.mp ht
    have hj := (index_spec hfk.inc h2' (hr t ht).1 (hr t ht).2).1
    rw [isPwOn_at hGpw hfk.inc h2' (hr t ht).1 (hr t ht).2, isPwOn_at hpw hfk.inc h2' (hr t ht).1 (hr t ht).2, hGp _ _ hj,
      Pi.add_apply, add_sub_cancel_left, Pi.smul_apply, smul_eq_mul]
    ring

/-! ### examples -/

/-- Cost and coefficients, for the examples. -/
def showFit (o : SplineOut ℚ (Fin 1 → ℚ) × Cost ℚ 1) : List (List ℚ) × List ℚ × List ℚ × List (List ℚ) :=
  (o.2.inner.map (fun l => l.map fun v => v 0), o.2.lo.map fun v => v 0, o.2.hi.map fun v => v 0,
    match o.1 with | .pw p => p.c.map (fun l => l.map fun v => v 0) | .per _ => [])

/-- A fit to a step: four points, three knots, `n = 1`. -/
theorem splfit_step : (splfit (exactScipy ℚ) [0, 1, 2] [1/4, 3/4, 5/4, 7/4]
      [fun _ : Fin 1 => 0, fun _ => 0, fun _ => 1, fun _ => 1] none 1).map showFit =
    .ok ([[2/5]], [], [], [[-3/10, 0], [-3/10, 4/5], [1/2, 4/5], [13/10, 0]]) := by decide +kernel

/-- The hypotheses of C33 and C34 with `lo` and `hi`. -/
example : (splfit (exactScipy ℚ) [0, 1] [1/4, 3/4, 1/2] [fun _ : Fin 1 => 0, fun _ => 0, fun _ => 1] none 2 none
      [fun _ => 1] [fun _ => 2]).map showFit =
    .ok ([[], []], [-1/68], [35/68], [[1, -71/17, 0], [1, -71/17, 88/17], [2, 105/17, 0]]) := by decide +kernel

theorem step_knots : FitKnots [0, 1, 2] [1/4, 3/4, 5/4, (7/4 : ℚ)] [0, 1, 2] := by
  refine ⟨by decide +kernel, fun t => ⟨fun h => Or.inl h, ?_⟩⟩
  rintro (h | ⟨hm, h, h'⟩ | ⟨hm, h, h'⟩)
  · exact h
  · have h0 := h' 0 (by simp)
    exfalso
    have : t ∈ [1/4, 3/4, 5/4, (7/4 : ℚ)] := hm
    simp only [List.mem_cons, List.not_mem_nil, or_false] at this
    rcases this with rfl | rfl | rfl | rfl <;> norm_num at h0
  · have h2 := h' 2 (by simp)
    exfalso
    have : t ∈ [1/4, 3/4, 5/4, (7/4 : ℚ)] := hm
    simp only [List.mem_cons, List.not_mem_nil, or_false] at this
    rcases this with rfl | rfl | rfl | rfl <;> norm_num at h2

/-- The hypotheses of `C34_succeeds_data` hold here. -/
example : ∃ out cost, splfit (exactScipy ℚ) [0, 1, 2] [1/4, 3/4, 5/4, 7/4]
    [fun _ : Fin 1 => 0, fun _ => 0, fun _ => 1, fun _ => 1] none 1 = .ok (out, cost) := by
  refine C34_succeeds_data (nc := 0) (j0 := 0) (exactScipy_ok) (by decide +kernel) (by simp) (by simp) (by simp) (by simp) (by simp)
    (Or.inl ⟨rfl, rfl⟩) (by omega) (by simp) (by simp) (by simp) (by simp) (by simp) step_knots (by simp) ?_ ?_
  · refine ⟨{1/4, 3/4}, by decide +kernel, ?_⟩
    intro t ht
    simp only [Finset.mem_insert, Finset.mem_singleton] at ht
    rcases ht with rfl | rfl <;> norm_num
  · intro j hj h0
    obtain rfl : j = 1 := by simp at hj; omega
    refine ⟨{5/4}, by simp, ?_⟩
    intro t ht
    simp only [Finset.mem_singleton] at ht
    subst ht; norm_num

/-- **C35**, the documented sign is wrong: with the step data `cost[0][0] = 2/5` is positive, which is documented to mean
that `chi2` increases with a positive jump; but for every sufficiently small positive jump `chi2` becomes smaller. -/
theorem C35_sign_refuted : ∃ (p : PwPoly ℚ (Fin 1 → ℚ)) (cost : Cost ℚ 1), splfit (exactScipy ℚ) [0, 1, 2] [1/4, 3/4, 5/4, 7/4]
      [fun _ : Fin 1 => 0, fun _ => 0, fun _ => 1, fun _ => 1] none 1 = .ok (.pw p, cost) ∧
    0 < (cost.inner.getD 0 []).getD 0 0 0 ∧
    ∃ δ : ℚ, 0 < δ ∧ ∀ ε : ℚ, 0 < ε → ε < δ → ∃ (C : ℕ → List (Fin 1 → ℚ)) (g : ℚ → Fin 1 → ℚ), IsPwOn [(0 : ℚ), 1, 2] 1 C g ∧ jump [(0 : ℚ), 1, 2] C 0 0 0 = ε ∧
      chi2 [1/4, 3/4, 5/4, 7/4] [fun _ : Fin 1 => 0, fun _ => 0, fun _ => 1, fun _ => 1] [1, 1, 1, 1] g <
      chi2 [1/4, 3/4, 5/4, 7/4] [fun _ : Fin 1 => 0, fun _ => 0, fun _ => 1, fun _ => 1] [1, 1, 1, 1] p.call := by
  obtain ⟨o, ho⟩ : ∃ o, splfit (exactScipy ℚ) [0, 1, 2] [1/4, 3/4, 5/4, 7/4]
      [fun _ : Fin 1 => 0, fun _ => 0, fun _ => 1, fun _ => 1] none 1 = .ok o := by
    have := splfit_step
    revert this
    generalize splfit (exactScipy ℚ) [0, 1, 2] [1/4, 3/4, 5/4, 7/4] [fun _ : Fin 1 => 0, fun _ => 0, fun _ => 1, fun _ => 1] none 1 = r
    intro h
    cases r with
    | error e => cases h
    | ok o => exact ⟨o, rfl⟩
  obtain ⟨out, cost⟩ := o
  have hc := splfit_step
  rw [ho] at hc
  have hc := congrArg (·.1) (Except.ok.inj hc)
  simp only [showFit] at hc
  have hcost : (cost.inner.getD 0 []).getD 0 0 0 = 2 / 5 := by
    have h1 : ((cost.inner.map fun l => l.map fun v => v 0).getD 0 []).getD 0 0 = (2 / 5 : ℚ) := by rw [hc]; rfl
    rw [← h1]
    rcases cost.inner with _ | ⟨_ | ⟨v, l⟩, L⟩ <;> rfl
  obtain ⟨p, xk', nc, rfl, hfk, hor, key⟩ := C35_sensitivity_partial exactScipy_ok (by decide +kernel) (by simp) ho
  obtain rfl := step_knots.unique hfk
  obtain rfl : nc = 0 := by
    rcases hor with ⟨-, h⟩ | h
    · omega
    · cases h
  obtain ⟨A, hA⟩ := key (fun _ _ _ => 1) [] [] rfl rfl
  simp only [List.length_cons, List.length_nil, sum_range_succ, range_zero, sum_empty, zero_add, univ_unique, Fin.default_eq_zero, Fin.isValue,
    sum_singleton, mul_one, add_zero, hcost, List.range_zero, List.map_nil] at hA
  refine ⟨p, cost, ho, by rw [hcost]; norm_num, 2 / 5 / (|A| + 1), by positivity, fun ε h0 h1 => ?_⟩
  obtain ⟨C, g, hg, hj, -, hlt⟩ := (hA ε).2
  refine ⟨C, g, hg, ?_, ?_⟩
  · have := congrFun (hj 0 (by simp) 0 le_rfl) 0
    simpa using this
  · rw [lt_div_iff₀ (by positivity)] at h1
    have hA' : A * ε ≤ |A| * ε := mul_le_mul_of_nonneg_right (le_abs_self A) h0.le
    have : A * ε ^ 2 < ε * (2 / 5) := by nlinarith
    have hlt' := hlt
    simp only [Option.getD_none, List.map_cons, List.map_nil] at hlt'
    change chi2 _ _ [fun _ => 1, fun _ => 1, fun _ => 1, fun _ => 1] g < chi2 _ _ [fun _ => 1, fun _ => 1, fun _ => 1, fun _ => 1] p.call
    linarith

end Npplus
