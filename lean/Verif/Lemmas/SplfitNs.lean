import Verif.Lemmas.SplfitPw
import Verif.Lemmas.SplineOk

/-! Helper lemmas for `splfit`: when the linear system is nonsingular. -/

set_option linter.unusedSectionVars false

namespace Npplus
open Spec Finset

variable {K : Type} [Field K] [LinearOrder K] [IsStrictOrderedRing K] {m : ℕ}

namespace Fit

variable {n nc nk1 N : ℕ} {dx : ℕ → K} {ix : ℕ → ℕ} {x y w : ℕ → K} {lo hi : List K}

theorem bincount_eq_zero (N : ℕ) (ix : ℕ → ℕ) (j : ℕ) {f : ℕ → K} (hf : ∀ t, f t = 0) : bincount N ix f j = 0 := by
  unfold bincount
  refine sum_eq_zero fun t _ => ?_
  rw [hf]; simp

/-- The homogeneous system has the same matrix. -/
theorem splSys_homog (per : Bool) :
    (splSys n nc nk1 dx N ix x 0 w (List.replicate lo.length 0) (List.replicate hi.length 0) per).n = (splSys n nc nk1 dx N ix x y w lo hi per).n ∧
    (splSys n nc nk1 dx N ix x 0 w (List.replicate lo.length 0) (List.replicate hi.length 0) per).a = (splSys n nc nk1 dx N ix x y w lo hi per).a ∧
    (splSys n nc nk1 dx N ix x 0 w (List.replicate lo.length 0) (List.replicate hi.length 0) per).b = fun _ => 0 := by
  have g : ∀ (L k : ℕ), (List.replicate L (0 : K)).getD k 0 = 0 := by
    intro L k
    rcases Nat.lt_or_ge k L with h | h
    · rw [List.getD_eq_getElem _ _ (by simpa using h)]; simp
    · rw [List.getD_eq_default _ _ (by simpa using h)]
  have bz : ∀ f, (if f % (n + 2 + nc) < n + 1 then bincount N ix (fun t => (w t * x t ^ (f % (n + 2 + nc))) * (0 : ℕ → K) t) (f / (n + 2 + nc)) else 0) = 0 := by
    intro f
    split
    · exact bincount_eq_zero _ _ _ fun t => by simp
    · rfl
  cases per with
  | true =>
    unfold splSys
    simp only [if_true, true_and]
    funext f
    exact bz f
  | false =>
    unfold splSys
    simp only [Bool.false_eq_true, if_false, List.length_replicate, true_and]
    funext f
    simp only [g, zero_mul, bz, ite_self]

/-- The matrix is nonsingular when the data determine the coefficients and the constraints are independent. -/
theorem splSys_nonsing (hnc : nc < n) (hk : 1 ≤ nk1) (hlo : lo.length ≤ nc + 1) (hhi : hi.length ≤ nc + 1)
    (hix : ∀ t < N, ix t < nk1) (hw : ∀ t < N, 0 < w t)
    (hdet : ∀ c : ℕ → ℕ → K,
      (∀ j k, j + 1 < nk1 → k < nc + 1 → ∑ q ∈ range (n + 1), (q.choose k : K) * c j q = ratOf nk1 dx j k * c (j + 1) k) →
      (∀ k < hi.length, ∑ q ∈ range (n + 1), (q.choose k : K) * c (nk1 - 1) q = 0) →
      (∀ k < lo.length, c 0 k = 0) → (∀ t < N, ∑ q ∈ range (n + 1), x t ^ q * c (ix t) q = 0) →
      ∀ j < nk1, ∀ q < n + 1, c j q = 0)
    (hind : ∀ (a : ℕ → ℕ → K) (bl bh : ℕ → K), ∃ c : ℕ → ℕ → K,
      (∀ j k, j + 1 < nk1 → k < nc + 1 → ∑ q ∈ range (n + 1), (q.choose k : K) * c j q - ratOf nk1 dx j k * c (j + 1) k = a j k) ∧
      (∀ k < hi.length, ∑ q ∈ range (n + 1), (q.choose k : K) * c (nk1 - 1) q = bh k) ∧
      (∀ k < lo.length, c 0 k = bl k)) :
    Nonsing (splSys n nc nk1 dx N ix x y w lo hi false).n (symBand (n + 1) (splSys n nc nk1 dx N ix x y w lo hi false).a) := by
  obtain ⟨e1, e2, e3⟩ := splSys_homog (n := n) (nc := nc) (nk1 := nk1) (dx := dx) (N := N) (ix := ix) (x := x) (y := y) (w := w) (lo := lo) (hi := hi) false
  rw [← e1, ← e2, nonsing_iff_kernel]
  intro v hv
  rw [← e3] at hv
  have hN := splSys_n (n := n) (dx := dx) (N := N) (ix := ix) (x := x) (y := 0) (w := w) (lo := List.replicate lo.length (0:K))
    (hi := List.replicate hi.length 0) (nc := nc) hk (by simpa using hhi)
  obtain ⟨s1, s2, s3, s4⟩ := splSol_spec hnc hk (by simpa using hlo) (by simpa using hhi) hv (fun _ _ => rfl) (fun _ _ => rfl)
  simp only [List.length_replicate] at s1 s2 s3 s4 hN
  have g : ∀ (L k : ℕ), (List.replicate L (0 : K)).getD k 0 = 0 := by
    intro L k
    rcases Nat.lt_or_ge k L with h | h
    · rw [List.getD_eq_getElem _ _ (by simpa using h)]; simp
    · rw [List.getD_eq_default _ _ (by simpa using h)]
  replace s2 := fun k hk' => (s2 k hk').trans (by rw [g, zero_mul])
  replace s3 := fun k hk' => (s3 k hk').trans (by rw [g, zero_mul])
  have s4' := s4
  simp only [data_form hix] at s4
  have hz : ∀ t < N, ∑ q ∈ range (n + 1), x t ^ q * v (lo.length + (ix t * (n + 2 + nc) + q)) = 0 := by
    have h1 := s4 (fun j q => v (lo.length + (j * (n + 2 + nc) + q)))
    beta_reduce at h1
    rw [sum_eq_zero (s := range (nk1 - 1)), sum_eq_zero (s := range hi.length), sum_eq_zero (s := range lo.length), add_zero, add_zero, sub_zero] at h1
    rotate_left
    · intro k hk'
      rw [s3 k (mem_range.mp hk'), mul_zero]
    · intro k hk'
      rw [s2 k (mem_range.mp hk'), mul_zero]
    · intro j hj
      refine sum_eq_zero fun k hk' => ?_
      have := mem_range.mp hj
      rw [s1 j k (by omega) (mem_range.mp hk'), sub_self, mul_zero]
    have h2 : ∑ t ∈ range N, w t * (∑ q ∈ range (n + 1), x t ^ q * v (lo.length + (ix t * (n + 2 + nc) + q))) ^ 2 = 0 := by
      rw [← h1]
      refine sum_congr rfl fun t _ => ?_
      rw [Pi.zero_apply, sub_zero, mul_assoc, sq]
    intro t ht
    have h3 := (sum_eq_zero_iff_of_nonneg (fun t ht => mul_nonneg (hw t (mem_range.mp ht)).le (sq_nonneg _))).mp h2 t (mem_range.mpr ht)
    exact pow_eq_zero_iff (n := 2) (by norm_num) |>.mp ((mul_eq_zero.mp h3).resolve_left (hw t ht).ne')
  have hc0 := hdet _ s1 s2 s3 hz
  obtain ⟨dc, d1, d2, d3⟩ := hind (fun j k => v (lo.length + (j * (n + 2 + nc) + (n + 1 + k)))) (fun k => - v k)
    (fun k => v (lo.length + ((nk1 - 1) * (n + 2 + nc) + (n + 1 + k))))
  have h1 := s4 dc
  rw [sum_eq_zero (s := range N)] at h1
  rotate_left
  · intro t ht
    rw [hz t (mem_range.mp ht), Pi.zero_apply, sub_zero, mul_zero]
  have q1 : ∑ j ∈ range (nk1 - 1), ∑ k ∈ range (nc + 1), v (lo.length + (j * (n + 2 + nc) + (n + 1 + k))) *
      (∑ q ∈ range (n + 1), (q.choose k : K) * dc j q - ratOf nk1 dx j k * dc (j + 1) k) =
      ∑ j ∈ range (nk1 - 1), ∑ k ∈ range (nc + 1), v (lo.length + (j * (n + 2 + nc) + (n + 1 + k))) ^ 2 := by
    refine sum_congr rfl fun j hj => sum_congr rfl fun k hk' => ?_
    have := mem_range.mp hj
    rw [d1 j k (by omega) (mem_range.mp hk'), sq]
  have q2 : ∑ k ∈ range hi.length, v (lo.length + ((nk1 - 1) * (n + 2 + nc) + (n + 1 + k))) * ∑ q ∈ range (n + 1), (q.choose k : K) * dc (nk1 - 1) q =
      ∑ k ∈ range hi.length, v (lo.length + ((nk1 - 1) * (n + 2 + nc) + (n + 1 + k))) ^ 2 :=
    sum_congr rfl fun k hk' => by rw [d2 k (mem_range.mp hk'), sq]
  have q3 : ∑ k ∈ range lo.length, v k * dc 0 k = - ∑ k ∈ range lo.length, v k ^ 2 := by
    rw [← sum_neg_distrib]
    exact sum_congr rfl fun k hk' => by rw [d3 k (mem_range.mp hk')]; ring
  rw [q1, q2, q3, zero_add, sub_neg_eq_add] at h1
  have p1 : 0 ≤ ∑ j ∈ range (nk1 - 1), ∑ k ∈ range (nc + 1), v (lo.length + (j * (n + 2 + nc) + (n + 1 + k))) ^ 2 :=
    sum_nonneg fun _ _ => sum_nonneg fun _ _ => sq_nonneg _
  have p2 : 0 ≤ ∑ k ∈ range hi.length, v (lo.length + ((nk1 - 1) * (n + 2 + nc) + (n + 1 + k))) ^ 2 := sum_nonneg fun _ _ => sq_nonneg _
  have p3 : 0 ≤ ∑ k ∈ range lo.length, v k ^ 2 := sum_nonneg fun _ _ => sq_nonneg _
  have z1 := (sum_eq_zero_iff_of_nonneg (fun _ _ => sum_nonneg fun _ _ => sq_nonneg _)).mp (show
    ∑ j ∈ range (nk1 - 1), ∑ k ∈ range (nc + 1), v (lo.length + (j * (n + 2 + nc) + (n + 1 + k))) ^ 2 = 0 by linarith)
  have z2 := (sum_eq_zero_iff_of_nonneg (fun _ _ => sq_nonneg _)).mp (show
    ∑ k ∈ range hi.length, v (lo.length + ((nk1 - 1) * (n + 2 + nc) + (n + 1 + k))) ^ 2 = 0 by linarith)
  have z3 := (sum_eq_zero_iff_of_nonneg (fun _ _ => sq_nonneg _)).mp (show ∑ k ∈ range lo.length, v k ^ 2 = 0 by linarith)
  have sq0 : ∀ a : K, a ^ 2 = 0 → a = 0 := fun a h => pow_eq_zero_iff (n := 2) (by norm_num) |>.mp h
  intro i hi'
  rw [hN] at hi'
  rcases Nat.lt_or_ge i lo.length with h | h
  · exact sq0 _ (z3 i (mem_range.mpr h))
  obtain ⟨f, rfl⟩ : ∃ f, i = lo.length + f := ⟨i - lo.length, by omega⟩
  have hdm : f = f / (n + 2 + nc) * (n + 2 + nc) + f % (n + 2 + nc) := by rw [mul_comm]; exact (Nat.div_add_mod f _).symm
  have hml : f % (n + 2 + nc) < n + 2 + nc := Nat.mod_lt _ (by omega)
  generalize f / (n + 2 + nc) = j at hdm
  generalize f % (n + 2 + nc) = q at hdm hml
  subst hdm
  rcases Nat.lt_or_ge q (n + 1) with hq | hq
  · exact hc0 j ((pos_c hk hhi hq).mp hi') q hq
  · obtain ⟨k, rfl⟩ : ∃ k, q = n + 1 + k := ⟨q - (n + 1), by omega⟩
    have hj : j < nk1 := by
      by_contra hc
      have := (not_congr (pos_c (n := n) (nc := nc) (nlo := lo.length) (nhi := hi.length) (j := j) (q := 0) hk hhi (by omega))).mpr hc
      omega
    rcases (pos_l hk hhi (by omega) hj).mp hi' with h1 | h1
    · exact sq0 _ ((sum_eq_zero_iff_of_nonneg (fun _ _ => sq_nonneg _)).mp (z1 j (mem_range.mpr (by omega))) k (mem_range.mpr (by omega)))
    · by_cases hj1 : j + 1 < nk1
      · exact sq0 _ ((sum_eq_zero_iff_of_nonneg (fun _ _ => sq_nonneg _)).mp (z1 j (mem_range.mpr (by omega))) k (mem_range.mpr (by omega)))
      · obtain rfl : j = nk1 - 1 := by omega
        exact sq0 _ (z2 k (mem_range.mpr h1))

end Fit
end Npplus
