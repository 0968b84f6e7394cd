import Verif.Props.SplfitPerOk

/-!
# C34, C35: periodic `splfit`, failure with one interval, wrong cost with unequal intervals, examples
-/

set_option linter.unusedSectionVars false

namespace Npplus
open Spec Finset Fit

section
variable {K : Type} [Field K] [LinearOrder K] [IsStrictOrderedRing K] [FloorRing K] {m : ℕ}
  {S : Scipy K} {xk x : List K} {y : List (Fin m → K)}
  {sigy : Option (List (Fin m → K))} {n : ℕ} {ncArg : Option ℤ} {lo hi : List (Fin m → K)} {per : Bool}
  {extrap : Option (ℕ × ℕ)} {out : SplineOut K (Fin m → K)} {cost : Cost K m}

/-- **C34** — a periodic fit with a single interval (two knots) never returns, whatever the data. -/
theorem C34_periodic_one_interval_error (hs : xk.Pairwise (· < ·)) (h2 : xk.length = 2) (hm : 0 < m) (o) :
    splfit S xk x y sigy n ncArg lo hi true extrap ≠ .ok o := by
  obtain ⟨out, cost⟩ := o
  intro h
  obtain ⟨s, nc, z, hset, hy, hsg, hor, hnc, -, -, hz, -⟩ := splfit_ok h
  obtain ⟨-, e1, e2, e3, hper, -⟩ := setup_ok hset hs
  obtain ⟨-, -, -, hxk, -⟩ := hper rfl
  have := hz ⟨0, hm⟩
  simp only [if_true, sysOf, hxk, h2] at this
  unfold splSys solvesPeriodic solvePeriodic at this
  simp only [if_true, bind, Except.bind, pure, Except.pure, throw, throwThe, MonadExceptOf.throw, symgen] at this
  split at this
  · cases this
  · rw [if_pos (by omega)] at this
    cases this

theorem per_independent_vec (hs : xk.Pairwise (· < ·)) (h2 : 2 ≤ xk.length) {n nc : ℕ} (hnc : nc < n) (a : ℕ → ℕ → Fin m → K) :
    ∃ C : ℕ → List (Fin m → K), (∀ j, j + 1 < xk.length → (C j).length = n + 1) ∧
      ∀ j, j + 1 < xk.length → ∀ k ≤ nc, perJump xk C j k = a j k := by
  have := fun i => C34_periodic_independent hs h2 hnc (fun j k => a j k i)
  choose D d1 d2 using this
  set C : ℕ → List (Fin m → K) := fun j => (List.range (n + 1)).map fun q i => (D i j).getD q 0 with hC
  have hCl : ∀ j, (C j).length = n + 1 := fun j => by simp [hC]
  have hCm : ∀ i j, j + 1 < xk.length → (C j).map (· i) = D i j := by
    intro i j hj
    refine List.ext_getElem (by rw [List.length_map, hCl, d1 i j hj]) fun q h1 h2 => ?_
    simp only [hC, List.map_map, List.getElem_map, List.getElem_range, Function.comp]
    exact List.getD_eq_getElem _ _ h2
  refine ⟨C, fun j _ => hCl j, fun j hj k hk => ?_⟩
  funext i
  have hmod : (j + 1) % (xk.length - 1) + 1 < xk.length := by
    have := Nat.mod_lt (j + 1) (show 0 < xk.length - 1 by omega)
    omega
  have := d2 i j hj k hk
  unfold perJump rightCoeff at this ⊢
  rw [Pi.sub_apply, ← getD_map_apply, hCm i _ hmod, taylorCoeff_apply, hCm i j hj, this]

end

/-! ### unequal intervals -/

/-- The data of the counterexample: two straight lines through three points each, on intervals of width 1 and 2. -/
def kinkX : List ℚ := [1/4, 1/2, 3/4, 3/2, 2, 5/2]
def kinkY : List (Fin 1 → ℚ) := [fun _ => 1/4, fun _ => 1/2, fun _ => 3/4, fun _ => 3/4, fun _ => 1/2, fun _ => 1/4]

/-- The fit exists, so that the hypotheses of C33, C34, C35 (periodic) can be met. -/
theorem kink_fit {S : Scipy ℚ} (hS : ScipyOK S) :
    ∃ out cost, splfit S [0, 1, 3] kinkX kinkY none 2 none [] [] true none = .ok (out, cost) := by
  refine C34_periodic_succeeds_data (nc := 1) (j0 := 0) hS (by decide +kernel) (by simp) rfl rfl ?_ (Or.inl ⟨rfl, rfl⟩) (by omega) (by simp) ?_ ?_
  · intro v hv i
    simp [kinkY] at hv
    rw [hv]; norm_num
  · refine ⟨{1/4, 1/2, 3/4}, by decide +kernel, fun t ht => ⟨⟨0, ?_⟩, ?_⟩⟩
    · simp only [Finset.mem_insert, Finset.mem_singleton] at ht
      rcases ht with rfl | rfl | rfl <;> simp [kinkX]
    · simp only [Finset.mem_insert, Finset.mem_singleton] at ht
      rcases ht with rfl | rfl | rfl <;> norm_num
  · intro j hj h0
    obtain rfl : j = 1 := by simp at hj; omega
    refine ⟨{3/2}, by decide +kernel, fun t ht => ⟨⟨0, ?_⟩, ?_⟩⟩
    · simp only [Finset.mem_singleton] at ht
      subst ht; simp [kinkX]
    · simp only [Finset.mem_singleton] at ht
      subst ht; norm_num

/-- **C35**, periodic fits with unequal intervals: the returned cost is not the derivative of `chi2` with respect to
the jumps, whichever sign is meant.  With the knots `0, 1, 3`, degree 2 and the default `nc = 1`, for neither sign `s` is
`chi2(g) = chi2(fit) + Σ((g-fit)/sigy)² + s Σ cost·jump` for all periodic piecewise polynomials `g`. -/
theorem C35_periodic_refuted {S : Scipy ℚ} (hS : ScipyOK S) {P : PerPwPoly ℚ (Fin 1 → ℚ)} {cost : Cost ℚ 1} {f : ℚ → Fin 1 → ℚ}
    (h : splfit S [0, 1, 3] kinkX kinkY none 2 none [] [] true none = .ok (.per P, cost)) (hf : ∀ t, P.call t = .ok (f t))
    (s : ℚ) (hs1 : s = 1 ∨ s = -1) :
    ¬ ∀ C g, IsPwPer [(0 : ℚ), 1, 3] 2 C g →
        chi2 kinkX kinkY [1, 1, 1, 1, 1, 1] g = chi2 kinkX kinkY [1, 1, 1, 1, 1, 1] f +
          ∑ t ∈ range 6, ∑ i, ((g (kinkX.getD t 0) i - f (kinkX.getD t 0) i)) ^ 2 +
          s * ∑ j ∈ range 2, ∑ k ∈ range 2, ∑ i, (cost.inner.getD k []).getD j 0 i * perJump [(0 : ℚ), 1, 3] C j k i := by
  intro hall
  have hinc : [(0 : ℚ), 1, 3].Pairwise (· < ·) := by decide +kernel
  obtain ⟨P', f', nc, hout, hPf, -, hwf, hbx, hbn, hor, hnc, -, -, -, hpw, hsm, -, -, -, -, key⟩ := splfit_per_core hS hinc h
  cases hout
  obtain rfl : f' = f := by
    funext t
    have := hPf t
    rw [hf] at this
    exact (Except.ok.inj this).symm
  obtain rfl : nc = 1 := by
    rcases hor with ⟨-, h⟩ | h
    · omega
    · cases h
  have hsig : (none : Option (List (Fin 1 → ℚ))).getD (kinkY.map fun _ _ => 1) = [1, 1, 1, 1, 1, 1] := by
    simp only [Option.getD_none, kinkY, List.map_cons, List.map_nil]; rfl
  rw [hsig] at key
  have hlen : kinkX.length = 6 := rfl
  have hone : ∀ t ∈ range 6, ([1, 1, 1, 1, 1, 1] : List (Fin 1 → ℚ)).getD t 0 0 = 1 := by
    intro t ht
    have := mem_range.mp ht
    interval_cases t <;> rfl
  have w0 : Spl.width [(0 : ℚ), 1, 3] 0 = 1 := by norm_num [Spl.width]
  have w1 : Spl.width [(0 : ℚ), 1, 3] 1 = 2 := by norm_num [Spl.width]
  have diff : ∀ (C : ℕ → List (Fin 1 → ℚ)) (g : ℚ → Fin 1 → ℚ), IsPwPer [(0 : ℚ), 1, 3] 2 C g →
      chi2 kinkX kinkY [1, 1, 1, 1, 1, 1] g = chi2 kinkX kinkY [1, 1, 1, 1, 1, 1] f' +
          ∑ t ∈ range 6, ∑ i, ((g (kinkX.getD t 0) i - f' (kinkX.getD t 0) i)) ^ 2 -
          ((cost.inner.getD 0 []).getD 0 0 0 * perJump [(0 : ℚ), 1, 3] C 0 0 0 + 1 / 2 * (cost.inner.getD 1 []).getD 0 0 0 * perJump [(0 : ℚ), 1, 3] C 0 1 0 +
            ((cost.inner.getD 0 []).getD 1 0 0 * perJump [(0 : ℚ), 1, 3] C 1 0 0 + 2 * (cost.inner.getD 1 []).getD 1 0 0 * perJump [(0 : ℚ), 1, 3] C 1 1 0)) := by
    intro C g hg
    have := key C g hg
    rw [this, hlen]
    simp only [List.length_cons, List.length_nil, Nat.add_one_sub_one, sum_range_succ _ 1, sum_range_one, zero_add, Nat.reduceAdd, univ_unique, Fin.default_eq_zero, sum_singleton]
    simp only [w0, w1]
    congr 1
    · congr 1
      refine sum_congr rfl fun t ht => ?_
      rw [hone t ht, div_one]
    · ring
  -- the costs of the jumps of the slopes vanish
  have eqs : ∀ (C : ℕ → List (Fin 1 → ℚ)) (g : ℚ → Fin 1 → ℚ), IsPwPer [(0 : ℚ), 1, 3] 2 C g →
      (1 + s) * ((cost.inner.getD 0 []).getD 0 0 0 * perJump [(0 : ℚ), 1, 3] C 0 0 0) +
      (1 / 2 + s) * ((cost.inner.getD 1 []).getD 0 0 0 * perJump [(0 : ℚ), 1, 3] C 0 1 0) +
      (1 + s) * ((cost.inner.getD 0 []).getD 1 0 0 * perJump [(0 : ℚ), 1, 3] C 1 0 0) +
      (2 + s) * ((cost.inner.getD 1 []).getD 1 0 0 * perJump [(0 : ℚ), 1, 3] C 1 1 0) = 0 := by
    intro C g hg
    have h1 := diff C g hg
    have h2 := hall C g hg
    simp only [sum_range_succ _ 1, sum_range_one, univ_unique, Fin.default_eq_zero, sum_singleton] at h2 h1
    linear_combination h1 - h2
  have c0 : (cost.inner.getD 1 []).getD 0 0 0 = 0 := by
    obtain ⟨C, hC, hj⟩ := per_independent_vec hinc (by simp) (show 1 < 2 by omega) (fun j k _ => if j = 0 ∧ k = 1 then (1 : ℚ) else 0 : ℕ → ℕ → Fin 1 → ℚ)
    have := eqs C _ (perFun_isPwPer hinc (by simp) hC)
    rw [hj 0 (by simp) 0 (by omega), hj 0 (by simp) 1 (by omega), hj 1 (by simp) 0 (by omega), hj 1 (by simp) 1 (by omega)] at this
    simp at this
    rcases this with h | h
    · exfalso; rcases hs1 with rfl | rfl <;> norm_num at h
    · exact h
  have c1 : (cost.inner.getD 1 []).getD 1 0 0 = 0 := by
    obtain ⟨C, hC, hj⟩ := per_independent_vec hinc (by simp) (show 1 < 2 by omega) (fun j k _ => if j = 1 ∧ k = 1 then (1 : ℚ) else 0 : ℕ → ℕ → Fin 1 → ℚ)
    have := eqs C _ (perFun_isPwPer hinc (by simp) hC)
    rw [hj 0 (by simp) 0 (by omega), hj 0 (by simp) 1 (by omega), hj 1 (by simp) 0 (by omega), hj 1 (by simp) 1 (by omega)] at this
    simp at this
    rcases this with h | h
    · exfalso; rcases hs1 with rfl | rfl <;> norm_num at h
    · exact h
  -- the data are on a continuous periodic function with two kinks
  set C : ℕ → List (Fin 1 → ℚ) := fun j => if j = 0 then [fun _ => 0, fun _ => 1, fun _ => 0] else [fun _ => 1, fun _ => -1/2, fun _ => 0] with hC
  have hg := perFun_isPwPer (n := 2) hinc (by simp) (C := C) (fun j _ => by simp only [hC]; split <;> rfl)
  have hv0 : ∀ t : ℚ, 0 < t → t ≤ 1 → perFun [(0 : ℚ), 1, 3] C t = fun _ => t := by
    intro t h0 h1
    rw [(hg.2 0 (by simp)).2 t (Or.inl (by simpa using h0)) (by simpa using h1) (by simp; linarith)]
    funext i
    simp [hC, polyVal, sum_range_succ]
  have hv1 : ∀ t : ℚ, 1 < t → t < 3 → perFun [(0 : ℚ), 1, 3] C t = fun _ => (3 - t) / 2 := by
    intro t h0 h1
    rw [(hg.2 1 (by simp)).2 t (Or.inl (by simpa using h0)) (by simpa using h1.le) (by simpa using h1)]
    funext i
    simp [hC, polyVal, sum_range_succ]
    ring
  have hchi0 : chi2 kinkX kinkY [1, 1, 1, 1, 1, 1] (perFun [(0 : ℚ), 1, 3] C) = 0 := by
    unfold chi2
    rw [hlen]
    refine sum_eq_zero fun t ht => sum_eq_zero fun i _ => ?_
    have := mem_range.mp ht
    have e : perFun [(0 : ℚ), 1, 3] C (kinkX.getD t 0) i = kinkY.getD t 0 i := by
      interval_cases t
      · exact (congrFun (hv0 (1/4) (by norm_num) (by norm_num)) i).trans (by simp [kinkY])
      · exact (congrFun (hv0 (1/2) (by norm_num) (by norm_num)) i).trans (by simp [kinkY])
      · exact (congrFun (hv0 (3/4) (by norm_num) (by norm_num)) i).trans (by simp [kinkY])
      · exact (congrFun (hv1 (3/2) (by norm_num) (by norm_num)) i).trans (by simp [kinkY]; norm_num)
      · exact (congrFun (hv1 2 (by norm_num) (by norm_num)) i).trans (by simp [kinkY]; norm_num)
      · exact (congrFun (hv1 (5/2) (by norm_num) (by norm_num)) i).trans (by simp [kinkY]; norm_num)
    rw [e, sub_self, zero_div, zero_pow (by omega)]
  have d := diff C _ hg
  have j00 : perJump [(0 : ℚ), 1, 3] C 0 0 0 = 0 := by
    simp [perJump, rightCoeff, hC, taylorCoeff, sum_range_succ]
  have j10 : perJump [(0 : ℚ), 1, 3] C 1 0 0 = 0 := by
    simp [perJump, rightCoeff, hC, taylorCoeff, sum_range_succ]
    norm_num
  rw [hchi0, c0, c1, j00, j10] at d
  have hchif : 0 ≤ chi2 kinkX kinkY [1, 1, 1, 1, 1, 1] f' := sum_nonneg fun _ _ => sum_nonneg fun _ _ => sq_nonneg _
  have hsum : ∑ t ∈ range 6, ∑ i, ((perFun [(0 : ℚ), 1, 3] C (kinkX.getD t 0) i - f' (kinkX.getD t 0) i)) ^ 2 = 0 :=
    le_antisymm (by linarith) (sum_nonneg fun _ _ => sum_nonneg fun _ _ => sq_nonneg _)
  have agree : ∀ t < 6, f' (kinkX.getD t 0) 0 = perFun [(0 : ℚ), 1, 3] C (kinkX.getD t 0) 0 := by
    intro t ht
    have h1 := (sum_eq_zero_iff_of_nonneg (fun _ _ => sum_nonneg fun _ _ => sq_nonneg _)).mp hsum t (mem_range.mpr ht)
    have h2 := (sum_eq_zero_iff_of_nonneg (fun _ _ => sq_nonneg _)).mp h1 0 (mem_univ 0)
    exact (sub_eq_zero.mp (pow_eq_zero_iff (n := 2) (by norm_num) |>.mp h2)).symm
  -- so the fit has the same kinks
  have coef : ∀ (l : List (Fin 1 → ℚ)), l.length = 3 → ∃ a b c : ℚ, (∀ t, polyVal l t 0 = a + b * t + c * t ^ 2) ∧ l.getD 1 0 0 = b ∧
      ∀ w, taylorCoeff l w 1 0 = b + 2 * w * c := by
    intro l hl
    refine ⟨l.getD 0 0 0, l.getD 1 0 0, l.getD 2 0 0, fun t => ?_, rfl, fun w => ?_⟩
    · simp only [polyVal, hl, sum_range_succ, range_zero, sum_empty, zero_add, Pi.add_apply, Pi.smul_apply, smul_eq_mul]
      ring
    · simp only [taylorCoeff, hl, sum_range_succ, range_zero, sum_empty, zero_add, Pi.add_apply, Pi.smul_apply, smul_eq_mul]
      norm_num [Nat.choose]
  obtain ⟨a0, b0, d0, hp0, -, ht0⟩ := coef (piece P.base 1) (hpw.2 0 (by simp)).1
  obtain ⟨a1, b1, d1, hp1, hb1, -⟩ := coef (piece P.base 2) (hpw.2 1 (by simp)).1
  have v0 : ∀ t : ℚ, 0 < t → t ≤ 1 → f' t 0 = a0 + b0 * t + d0 * t ^ 2 := by
    intro t h0 h1
    rw [(hpw.2 0 (by simp)).2 t (Or.inl (by simpa using h0)) (by simpa using h1) (by simp; linarith)]
    refine (hp0 _).trans ?_
    simp
  have v1 : ∀ t : ℚ, 1 < t → t < 3 → f' t 0 = a1 + b1 * (t - 1) + d1 * (t - 1) ^ 2 := by
    intro t h0 h1
    rw [(hpw.2 1 (by simp)).2 t (Or.inl (by simpa using h0)) (by simpa using h1.le) (by simpa using h1)]
    refine (hp1 _).trans ?_
    simp
  have q0 := (v0 (1/4) (by norm_num) (by norm_num)).symm.trans ((agree 0 (by omega)).trans (congrFun (hv0 (1/4) (by norm_num) (by norm_num)) 0))
  have q1 := (v0 (1/2) (by norm_num) (by norm_num)).symm.trans ((agree 1 (by omega)).trans (congrFun (hv0 (1/2) (by norm_num) (by norm_num)) 0))
  have q2 := (v0 (3/4) (by norm_num) (by norm_num)).symm.trans ((agree 2 (by omega)).trans (congrFun (hv0 (3/4) (by norm_num) (by norm_num)) 0))
  have q3 := (v1 (3/2) (by norm_num) (by norm_num)).symm.trans ((agree 3 (by omega)).trans (congrFun (hv1 (3/2) (by norm_num) (by norm_num)) 0))
  have q4 := (v1 2 (by norm_num) (by norm_num)).symm.trans ((agree 4 (by omega)).trans (congrFun (hv1 2 (by norm_num) (by norm_num)) 0))
  have q5 := (v1 (5/2) (by norm_num) (by norm_num)).symm.trans ((agree 5 (by omega)).trans (congrFun (hv1 (5/2) (by norm_num) (by norm_num)) 0))
  have hj := congrFun (hsm 0 (by simp) 1 (by omega)) 0
  simp only [perJump, rightCoeff, Pi.sub_apply, Pi.zero_apply] at hj
  have hj' : (piece P.base 2).getD 1 0 0 - taylorCoeff (piece P.base 1) (1 : ℚ) 1 0 = 0 := by
    have e : ([(0 : ℚ), 1, 3].getD (0 + 1) 0 - [(0 : ℚ), 1, 3].getD 0 0) = 1 := by norm_num
    rw [e] at hj
    exact hj
  rw [hb1, ht0] at hj'
  norm_num at q0 q1 q2 q3 q4 q5 hj'
  linarith

/-- The hypotheses of `C35_periodic_refuted` can be met. -/
example : ∃ (P : PerPwPoly ℚ (Fin 1 → ℚ)) (cost : Cost ℚ 1) (f : ℚ → Fin 1 → ℚ),
    splfit (exactScipy ℚ) [0, 1, 3] kinkX kinkY none 2 none [] [] true none = .ok (.per P, cost) ∧ ∀ t, P.call t = .ok (f t) := by
  obtain ⟨out, cost, h⟩ := kink_fit (exactScipy_ok (K := ℚ))
  obtain ⟨P, _, f, rfl, hf, -⟩ := C34_periodic (exactScipy_ok) (by decide +kernel) h
  exact ⟨P, cost, f, h, hf⟩

/-- Equidistant knots, data in several periods: the hypotheses of `C35_periodic_equidistant_partial` can be met. -/
example : ∃ out cost, splfit (exactScipy ℚ) [0, 1, 2] [1/4, 5/2, 19/4, 3/2] [fun _ : Fin 1 => 0, fun _ => 1, fun _ => 3, fun _ => 1]
    none 2 none [] [] true none = .ok (out, cost) := by
  refine C34_periodic_succeeds_data (nc := 1) (j0 := 0) exactScipy_ok (by decide +kernel) (by simp) rfl rfl (by simp) (Or.inl ⟨rfl, rfl⟩) (by omega) (by simp) ?_ ?_
  · refine ⟨{1/4, 1/2, 3/4}, by decide +kernel, fun t ht => ?_⟩
    simp only [Finset.mem_insert, Finset.mem_singleton] at ht
    rcases ht with rfl | rfl | rfl
    · exact ⟨⟨0, by simp⟩, by norm_num⟩
    · exact ⟨⟨1, by norm_num⟩, by norm_num⟩
    · exact ⟨⟨2, by norm_num⟩, by norm_num⟩
  · intro j hj h0
    obtain rfl : j = 1 := by simp at hj; omega
    refine ⟨{3/2}, by decide +kernel, fun t ht => ?_⟩
    simp only [Finset.mem_singleton] at ht
    subst ht
    exact ⟨⟨0, by simp⟩, by norm_num⟩

end Npplus
