import Verif.Lemmas.SplfitNs

/-! Helper lemmas for periodic `splfit`: when the linear system is nonsingular. -/

set_option linter.unusedSectionVars false

namespace Npplus
open Spec Finset

variable {K : Type} [Field K] [LinearOrder K] [IsStrictOrderedRing K] {m : ℕ}

namespace Fit

variable {n nc nk1 N : ℕ} {dx : ℕ → K} {ix : ℕ → ℕ} {x y w : ℕ → K} {lo hi : List K}

/-- The matrix of the periodic fit is that of a fit with all derivatives prescribed at the last knot, folded. -/
theorem splSys_per_band (z : List K) (hz : z.length = nc + 1) :
    (splSys n nc nk1 dx N ix x y w lo hi true).n = (splSys n nc nk1 dx N ix x y w [] z false).n ∧
    (splSys n nc nk1 dx N ix x y w lo hi true).a = (splSys n nc nk1 dx N ix x y w [] z false).a := by
  unfold splSys
  simp only [if_true, Bool.false_eq_true, if_false, List.length_nil, hz, Nat.sub_self, Nat.sub_zero, Nat.zero_add, true_and,
    Nat.not_lt_zero]

/-- The cyclic matrix is nonsingular when the data determine the coefficients and the constraints are independent. -/
theorem splSys_per_nonsing (hnc : nc < n) (hix : ∀ t < N, ix t < nk1) (hw : ∀ t < N, 0 < w t)
    (hdet : ∀ c : ℕ → ℕ → K,
      (∀ j k, j < nk1 → k < nc + 1 → ∑ q ∈ range (n + 1), (q.choose k : K) * c j q = ratOf nk1 dx j k * c ((j + 1) % nk1) k) →
      (∀ t < N, ∑ q ∈ range (n + 1), x t ^ q * c (ix t) q = 0) → ∀ j < nk1, ∀ q < n + 1, c j q = 0)
    (hind : ∀ (a : ℕ → ℕ → K), ∃ c : ℕ → ℕ → K,
      ∀ j k, j < nk1 → k < nc + 1 → ∑ q ∈ range (n + 1), (q.choose k : K) * c j q - ratOf nk1 dx j k * c ((j + 1) % nk1) k = a j k) :
    Nonsing ((n + 2 + nc) * nk1) (symCyclic ((n + 2 + nc) * nk1) (n + 1) (splSys n nc nk1 dx N ix x y w lo hi true).a) := by
  obtain ⟨e1, e2, e3⟩ := splSys_homog (n := n) (nc := nc) (nk1 := nk1) (dx := dx) (N := N) (ix := ix) (x := x) (y := y) (w := w) (lo := lo) (hi := hi) true
  rw [← e2, nonsing_iff_kernel]
  intro v hv
  rw [← e3] at hv
  obtain ⟨s1, s4⟩ := splSol_per_spec hnc hv (fun _ _ => rfl) (fun _ _ => rfl)
  have s4' := s4
  simp only [data_form hix] at s4
  have hz : ∀ t < N, ∑ q ∈ range (n + 1), x t ^ q * v (ix t * (n + 2 + nc) + q) = 0 := by
    have h1 := s4 (fun j q => v (j * (n + 2 + nc) + q))
    beta_reduce at h1
    rw [sum_eq_zero (s := range nk1), add_zero] at h1
    rotate_left
    · intro j hj
      refine sum_eq_zero fun k hk' => ?_
      have := mem_range.mp hj
      rw [s1 j k (by omega) (mem_range.mp hk'), sub_self, mul_zero]
    have h2 : ∑ t ∈ range N, w t * (∑ q ∈ range (n + 1), x t ^ q * v (ix t * (n + 2 + nc) + q)) ^ 2 = 0 := by
      rw [← h1]
      refine sum_congr rfl fun t _ => ?_
      rw [Pi.zero_apply, sub_zero, mul_assoc, sq]
    intro t ht
    have h3 := (sum_eq_zero_iff_of_nonneg (fun t ht => mul_nonneg (hw t (mem_range.mp ht)).le (sq_nonneg _))).mp h2 t (mem_range.mpr ht)
    exact pow_eq_zero_iff (n := 2) (by norm_num) |>.mp ((mul_eq_zero.mp h3).resolve_left (hw t ht).ne')
  have hc0 := hdet _ s1 hz
  obtain ⟨dc, d1⟩ := hind (fun j k => v (j * (n + 2 + nc) + (n + 1 + k)))
  have h1 := s4 dc
  rw [sum_eq_zero (s := range N), zero_add] at h1
  rotate_left
  · intro t ht
    rw [hz t (mem_range.mp ht), Pi.zero_apply, sub_zero, mul_zero]
  have q1 : ∑ j ∈ range nk1, ∑ k ∈ range (nc + 1), v (j * (n + 2 + nc) + (n + 1 + k)) *
      (∑ q ∈ range (n + 1), (q.choose k : K) * dc j q - ratOf nk1 dx j k * dc ((j + 1) % nk1) k) =
      ∑ j ∈ range nk1, ∑ k ∈ range (nc + 1), v (j * (n + 2 + nc) + (n + 1 + k)) ^ 2 := by
    refine sum_congr rfl fun j hj => sum_congr rfl fun k hk' => ?_
    rw [d1 j k (mem_range.mp hj) (mem_range.mp hk'), sq]
  rw [q1] at h1
  have z1 := (sum_eq_zero_iff_of_nonneg (fun _ _ => sum_nonneg fun _ _ => sq_nonneg _)).mp h1
  have sq0 : ∀ a : K, a ^ 2 = 0 → a = 0 := fun a h => pow_eq_zero_iff (n := 2) (by norm_num) |>.mp h
  intro f hf
  have hdm : f = f / (n + 2 + nc) * (n + 2 + nc) + f % (n + 2 + nc) := by rw [mul_comm]; exact (Nat.div_add_mod f _).symm
  have hml : f % (n + 2 + nc) < n + 2 + nc := Nat.mod_lt _ (by omega)
  have hj : f / (n + 2 + nc) < nk1 := Nat.div_lt_of_lt_mul hf
  generalize f / (n + 2 + nc) = j at hdm hj
  generalize f % (n + 2 + nc) = q at hdm hml
  subst hdm
  rcases Nat.lt_or_ge q (n + 1) with hq | hq
  · exact hc0 j hj q hq
  · obtain ⟨k, rfl⟩ : ∃ k, q = n + 1 + k := ⟨q - (n + 1), by omega⟩
    exact sq0 _ ((sum_eq_zero_iff_of_nonneg (fun _ _ => sq_nonneg _)).mp (z1 j (mem_range.mpr (by omega))) k (mem_range.mpr (by omega)))

/-- Coefficients with prescribed changes over a distance `W`. -/
theorem change_of {W : K} (hW : W ≠ 0) (M : ℕ) : ∀ R : ℕ → K, ∃ d : ℕ → K, ∀ k < M,
    ∑ q ∈ range (M + 1), (q.choose k : K) * (W ^ (q - k) * d q) - d k = R k := by
  induction M with
  | zero => intro R; exact ⟨0, fun k hk => by omega⟩
  | succ M ih =>
    intro R
    set e := R M / ((M + 1 : ℕ) * W) with he
    obtain ⟨d, hd⟩ := ih (fun k => R k - ((M + 1).choose k : K) * (W ^ (M + 1 - k) * e))
    refine ⟨fun q => if q = M + 1 then e else d q, fun k hk => ?_⟩
    beta_reduce
    rw [sum_range_succ, if_pos rfl, if_neg (show k ≠ M + 1 by omega)]
    have e1 : ∑ q ∈ range (M + 1), (q.choose k : K) * (W ^ (q - k) * if q = M + 1 then e else d q) =
        ∑ q ∈ range (M + 1), (q.choose k : K) * (W ^ (q - k) * d q) := by
      refine sum_congr rfl fun q hq => ?_
      rw [if_neg (by have := mem_range.mp hq; omega)]
    rw [e1]
    rcases Nat.lt_or_ge k M with h | h
    · have := hd k h
      linear_combination this
    · obtain rfl : k = M := by omega
      rw [sum_range_succ, sum_eq_zero, Nat.choose_self, Nat.choose_succ_self_right, Nat.sub_self, show k + 1 - k = 1 by omega, he]
      · have h1 : ((k + 1 : ℕ) : K) ≠ 0 := Nat.cast_ne_zero.mpr (by omega)
        field_simp
        simp
      · intro q hq
        rw [Nat.choose_eq_zero_of_lt (mem_range.mp hq)]; simp

end Fit
end Npplus
