import Verif.Lemmas.SolvePer
import Mathlib.LinearAlgebra.Matrix.NonsingularInverse

/-!
# Properties of npplus/solveper.py (C37, C38, C39)
-/

set_option linter.unusedSectionVars false
namespace Npplus
open Spec

variable {K : Type} [Field K] {V : Type} [AddCommGroup V] [Module K V]

/-! ### a computable pair of solvers meeting the contract -/

/-- Cramer's rule. -/
def cramer [DecidableEq K] (n : ℕ) (a : ℕ → ℕ → K) (b : ℕ → V) : Except PyErr (ℕ → V) :=
  let A : Matrix (Fin n) (Fin n) K := Matrix.of fun i j => a i j
  if A.det = 0 then .error .linAlgError
  else .ok fun j => if h : j < n then ∑ i, (A.det⁻¹ * A.adjugate ⟨j, h⟩ i) • b i else 0

theorem cramer_sound [DecidableEq K] {n : ℕ} {a : ℕ → ℕ → K} {b x : ℕ → V} (h : cramer n a b = .ok x) :
    Solves n a x b := by
  unfold cramer at h
  simp only at h
  split at h
  · cases h
  · next hd =>
    cases h
    intro i hi
    rw [← Fin.sum_univ_eq_sum_range (fun j => a i j • (if h : j < n then
      ∑ i', ((Matrix.of fun i j : Fin n => a i j).det⁻¹ *
        (Matrix.of fun i j : Fin n => a i j).adjugate ⟨j, h⟩ i') • b i' else 0)) n]
    set A : Matrix (Fin n) (Fin n) K := Matrix.of fun i j => a i j with hA
    simp only [Fin.is_lt, dif_pos, Fin.eta, Finset.smul_sum, smul_smul]
    rw [Finset.sum_comm]
    have e : ∀ k : Fin n, ∑ j : Fin n, (a i j * (A.det⁻¹ * A.adjugate j k)) • b k =
        ((1 : Matrix (Fin n) (Fin n) K) ⟨i, hi⟩ k) • b k := by
      intro k
      rw [← Finset.sum_smul]
      congr 1
      have h1 : (A * A.adjugate) ⟨i, hi⟩ k = (A.det • (1 : Matrix (Fin n) (Fin n) K)) ⟨i, hi⟩ k := by
        rw [Matrix.mul_adjugate]
      rw [Matrix.mul_apply, Matrix.smul_apply, smul_eq_mul] at h1
      have h2 : (1 : Matrix (Fin n) (Fin n) K) ⟨i, hi⟩ k = A.det⁻¹ * ∑ j, A ⟨i, hi⟩ j * A.adjugate j k := by
        rw [h1, ← mul_assoc, inv_mul_cancel₀ hd, one_mul]
      rw [h2, Finset.mul_sum]
      refine Finset.sum_congr rfl fun j _ => ?_
      have : A ⟨i, hi⟩ j = a i j := rfl
      rw [this]; ring
    simp only [e]
    rw [Finset.sum_eq_single ⟨i, hi⟩]
    · simp
    · intro k _ hk; rw [Matrix.one_apply_ne hk.symm, zero_smul]
    · simp

/-- Exact solvers by Cramer's rule. -/
def exactScipy (K : Type) [Field K] [DecidableEq K] : Scipy K where
  banded := fun l u n ab b => cramer n (bandMat l u ab) b
  dense := fun n a b => cramer n a b

theorem cramer_complete [DecidableEq K] {n : ℕ} {a : ℕ → ℕ → K} (b : ℕ → V) (h : Nonsing n a) :
    ∃ x, cramer n a b = .ok x := ⟨_, if_neg h⟩

/-- The contract assumed of scipy is satisfiable. -/
theorem exactScipy_ok [DecidableEq K] : ScipyOK (exactScipy K) where
  banded_sound := fun _ _ _ _ _ _ h => cramer_sound h
  banded_complete := fun _ _ _ _ b h => cramer_complete b h
  banded_singular := fun _ _ _ _ _ h => if_pos (not_not.mp h)
  dense_sound := fun _ _ _ _ h => cramer_sound h
  dense_complete := fun _ _ b h => cramer_complete b h
  dense_singular := fun _ _ _ h => if_pos (not_not.mp h)

/-! ### C38 -/

/-- **C38** — `_diag_to_norm((l, u), ab)` is the square matrix with `a[i,j] = ab[u+i-j, j]` inside the band
and 0 outside; an inconsistent number of rows is a ValueError.  (`u ≤ n`: see the model.) -/
theorem C38_diag_to_norm (l u : ℕ) (ab : Arr2 K) (hu : u ≤ ab.n) :
    (ab.m = u + 1 + l → ∃ a, diagToNorm l u ab = .ok a ∧ a.m = ab.n ∧ a.n = ab.n ∧
      ∀ i < ab.n, ∀ j < ab.n, a.get i j =
        if j ≤ u + i ∧ i ≤ j + l then ab.get (u + i - j) j else 0) ∧
    (ab.m ≠ u + 1 + l → diagToNorm l u ab = .error .valueError) := by
  refine ⟨fun h => diagToNorm_spec l u ab h hu, fun h => ?_⟩
  unfold diagToNorm
  rw [if_pos h]

/-- Non-trivial instance: `(l, u) = (2, 1)`, 4 × 4, `ab[r,j] = 10 r + j`. -/
def exAb : Arr2 ℚ := ⟨4, 4, fun r j => 10 * r + j⟩

example : (diagToNorm 2 1 exAb).toOption.map (fun a => (List.range 4).map fun i => (List.range 4).map (a.get i)) =
    some [[10, 1, 0, 0], [20, 11, 2, 0], [30, 21, 12, 3], [0, 31, 22, 13]] := by decide +kernel

/-! ### C37 -/

theorem solvePeriodic_ok {S : Scipy K} {l u nb : ℕ} {ab : Arr2 K} {b x : ℕ → V}
    (h : solvePeriodic S l u ab nb b = .ok x) :
    ab.n ≠ 0 ∧ l + u ≤ ab.n ∧ nb = ab.n ∧ ab.m = l + u + 1 ∧ ∃ corn xx xy p,
      cornMat l u ab.n ab = .ok corn ∧ S.banded l u ab.n ab.get b = .ok xx ∧
      S.banded l u ab.n ab.get (bbMat K l u ab.n) = .ok xy ∧
      S.dense (l + u) (fun i j => (if i = j then 1 else 0) +
        ∑ k ∈ Finset.range (l + u), corn i k * xy ((maskList l u ab.n).getD k 0) j)
        (fun i => ∑ k ∈ Finset.range (l + u), corn i k • xx ((maskList l u ab.n).getD k 0)) = .ok p ∧
      x = fun i => xx i - ∑ k ∈ Finset.range (l + u), xy i k • p k := by
  unfold solvePeriodic at h
  simp only [bind, Except.bind, pure, Except.pure, throw, throwThe, MonadExceptOf.throw] at h
  by_cases h0 : ab.n = 0 ∨ nb = 0
  · rw [if_pos h0] at h; cases h
  rw [if_neg h0] at h
  try simp only at h
  by_cases h1 : ab.n < l + u
  · rw [if_pos h1] at h; cases h
  rw [if_neg h1] at h
  try simp only at h
  cases hc : cornMat l u ab.n ab with
  | error e => rw [hc] at h; cases h
  | ok corn =>
    rw [hc] at h
    simp only at h
    unfold solveBanded at h
    by_cases h2 : ab.n ≠ nb
    · rw [if_pos h2] at h; cases h
    rw [if_neg h2] at h
    by_cases h3 : l + u + 1 ≠ ab.m
    · rw [if_pos h3] at h; cases h
    rw [if_neg h3, if_neg (by simp), if_neg h3] at h
    cases hxx : S.banded l u ab.n ab.get b with
    | error e => rw [hxx] at h; cases h
    | ok xx =>
      rw [hxx] at h
      simp only at h
      cases hxy : S.banded l u ab.n ab.get (bbMat K l u ab.n) with
      | error e => rw [hxy] at h; cases h
      | ok xy =>
        rw [hxy] at h
        simp only at h
        split at h
        · cases h
        · next p hp =>
          cases h
          exact ⟨by tauto, by omega, by tauto, by omega, corn, xx, xy, p, rfl, rfl, rfl, hp, rfl⟩

/-- **C37** — whatever `solve_periodic((l,u), ab, b)` returns solves the cyclic band system
`A[i,j] = Σ_r ab[r,j]` over the `r` with `i = j + r - u` modulo `n`. -/
theorem C37_solve_periodic {S : Scipy K} (hS : ScipyOK S) {l u nb : ℕ} {ab : Arr2 K} {b x : ℕ → V}
    (h : solvePeriodic S l u ab nb b = .ok x) :
    nb = ab.n ∧ l + u ≤ ab.n ∧ Solves ab.n (cyclicMat ab.n l u ab.get) x b := by
  obtain ⟨_, hlu, hnb, hm, corn, xx, xy, p, hc, hxx, hxy, hp, rfl⟩ := solvePeriodic_ok h
  refine ⟨hnb, hlu, fun i hi => ?_⟩
  have sxx := hS.banded_sound _ _ _ _ _ _ hxx
  have sxy := hS.banded_sound _ _ _ _ _ _ hxy
  have sp := hS.dense_sound _ _ _ _ hp
  rw [cyclic_apply hlu ab hm rfl hc _ hi]
  -- the band part
  have e1 : ∑ j ∈ Finset.range ab.n, bandMat l u ab.get i j •
      (xx j - ∑ k ∈ Finset.range (l + u), xy j k • p k) =
      b i - ∑ k ∈ Finset.range (l + u), bbMat K l u ab.n i k • p k := by
    simp only [smul_sub, Finset.sum_sub_distrib, Finset.smul_sum, smul_smul]
    rw [sxx i hi, Finset.sum_comm]
    congr 1
    refine Finset.sum_congr rfl fun k _ => ?_
    rw [← Finset.sum_smul]
    have := congrFun (sxy i hi) k
    rw [Finset.sum_apply] at this
    simp only [Pi.smul_apply, smul_eq_mul] at this
    rw [this]
  have e2 : ∀ a ∈ Finset.range (l + u), (bbMat K l u ab.n i a • ∑ k ∈ Finset.range (l + u), corn a k •
      (xx ((maskList l u ab.n).getD k 0) -
        ∑ k' ∈ Finset.range (l + u), xy ((maskList l u ab.n).getD k 0) k' • p k')) =
      bbMat K l u ab.n i a • p a := by
    intro a ha
    congr 1
    have := sp a (Finset.mem_range.mp ha)
    simp only [add_smul, Finset.sum_add_distrib] at this
    rw [Finset.sum_eq_single a (by intro k _ hk; rw [if_neg hk.symm, zero_smul])
      (by intro hn; exact absurd ha hn), if_pos rfl, one_smul] at this
    simp only [smul_sub, Finset.sum_sub_distrib, Finset.smul_sum, smul_smul]
    rw [← this, Finset.sum_comm]
    simp only [← Finset.sum_smul]
    abel
  rw [e1, Finset.sum_congr rfl e2]
  abel

/-- The `n × (l+u)` matrix `E` of the unit right hand sides, the corner matrix and the selection
matrix; `A = Ad + E (corn M)`. -/
theorem cyclic_det {l u : ℕ} {ab : Arr2 K} (hlu : l + u ≤ ab.n) (hm : ab.m = l + u + 1)
    {corn : ℕ → ℕ → K} (hc : cornMat l u ab.n ab = .ok corn) {xy : ℕ → ℕ → K}
    (sxy : Solves ab.n (bandMat l u ab.get) xy (bbMat K l u ab.n)) :
    (Matrix.of fun i j : Fin ab.n => cyclicMat ab.n l u ab.get i j).det =
      (Matrix.of fun i j : Fin ab.n => bandMat l u ab.get i j).det *
      (Matrix.of fun i j : Fin (l + u) => (if (i:ℕ) = j then 1 else 0) +
        ∑ k ∈ Finset.range (l + u), corn i k * xy ((maskList l u ab.n).getD k 0) j).det := by
  set n := ab.n with hn
  set Ad : Matrix (Fin n) (Fin n) K := Matrix.of fun i j => bandMat l u ab.get i j with hAd
  set XY : Matrix (Fin n) (Fin (l + u)) K := Matrix.of fun i k => xy i k with hXY
  set CM : Matrix (Fin (l + u)) (Fin n) K := Matrix.of fun a j =>
    ∑ k ∈ Finset.range (l + u), corn a k * (if (maskList l u n).getD k 0 = (j:ℕ) then 1 else 0) with hCM
  have hsel : ∀ k < l + u, (maskList l u n).getD k 0 < n := by
    intro k hk
    by_cases h : k < u
    · rw [sel_lo hlu h]; omega
    · obtain ⟨t, rfl⟩ : ∃ t, k = u + t := ⟨k - u, by omega⟩
      rw [sel_hi hlu (by omega)]; omega
  have h1 : (Matrix.of fun i j : Fin n => cyclicMat n l u ab.get i j) = Ad * (1 + XY * CM) := by
    rw [Matrix.mul_add, Matrix.mul_one, ← Matrix.mul_assoc]
    have hE : Ad * XY = Matrix.of fun (i : Fin n) (k : Fin (l + u)) => bbMat K l u n i k := by
      ext i k
      rw [Matrix.mul_apply]
      have := congrFun (sxy i i.2) k
      rw [Finset.sum_apply, ← Fin.sum_univ_eq_sum_range (fun j => (bandMat l u ab.get i j • xy j) k)] at this
      simpa [hAd, hXY] using this
    rw [hE]
    ext i j
    have := cyclic_apply (V := K) hlu ab hm rfl hc (fun j' => if j' = (j:ℕ) then 1 else 0) i.2
    simp only [smul_eq_mul, mul_ite, mul_one, mul_zero, Finset.sum_ite_eq', Finset.mem_range, j.2,
      if_true] at this
    rw [Matrix.of_apply, this, Matrix.add_apply, Matrix.mul_apply]
    congr 1
    rw [← Fin.sum_univ_eq_sum_range (fun a => bbMat K l u ab.n i a * ∑ k ∈ Finset.range (l + u),
      if (maskList l u ab.n).getD k 0 = (j:ℕ) then corn a k else 0)]
    refine Finset.sum_congr rfl fun a _ => ?_
    simp [hCM, hn]
  have h2 : CM * XY = Matrix.of fun i j : Fin (l + u) =>
      ∑ k ∈ Finset.range (l + u), corn i k * xy ((maskList l u n).getD k 0) j := by
    ext a b
    rw [Matrix.mul_apply]
    simp only [hCM, hXY, Matrix.of_apply, Finset.sum_mul]
    rw [Finset.sum_comm]
    refine Finset.sum_congr rfl fun k hk => ?_
    rw [Finset.sum_eq_single ⟨_, hsel k (Finset.mem_range.mp hk)⟩]
    · simp
    · intro j _ hj
      rw [if_neg (fun h => hj (Fin.ext h.symm))]; simp
    · simp
  rw [h1, Matrix.det_mul, Matrix.det_one_add_mul_comm, h2]
  congr 2
  ext a b
  simp only [Matrix.add_apply, Matrix.of_apply, Matrix.one_apply, Fin.ext_iff]

/-- **C37**, success — with `n ≥ l+u`, consistent shapes and both the band part and the whole matrix
nonsingular `solve_periodic` returns (the unique) solution. -/
theorem C37_succeeds {S : Scipy K} (hS : ScipyOK S) {l u : ℕ} {ab : Arr2 K} (b : ℕ → V)
    (hn : ab.n ≠ 0) (hlu : l + u ≤ ab.n) (hm : ab.m = l + u + 1)
    (hband : Nonsing ab.n (bandMat l u ab.get)) (hcyc : Nonsing ab.n (cyclicMat ab.n l u ab.get)) :
    ∃ x, solvePeriodic S l u ab ab.n b = .ok x := by
  obtain ⟨corn, hc, -⟩ := cornMat_spec ab hm rfl hlu
  obtain ⟨xx, hxx⟩ := hS.banded_complete l u ab.n ab.get b hband
  obtain ⟨xy, hxy⟩ := hS.banded_complete l u ab.n ab.get (bbMat K l u ab.n) hband
  have hd := cyclic_det hlu hm hc (hS.banded_sound _ _ _ _ _ _ hxy)
  have hns : Nonsing (l + u) (fun i j => (if i = j then 1 else 0) +
      ∑ k ∈ Finset.range (l + u), corn i k * xy ((maskList l u ab.n).getD k 0) j) := by
    intro h0
    apply hcyc
    rw [hd, h0, mul_zero]
  obtain ⟨p, hp⟩ := hS.dense_complete (V := V) (l + u) _
    (fun i => ∑ k ∈ Finset.range (l + u), corn i k • xx ((maskList l u ab.n).getD k 0)) hns
  unfold solvePeriodic
  simp only [bind, Except.bind, pure, Except.pure, throw, throwThe, MonadExceptOf.throw]
  rw [if_neg (by tauto)]
  try simp only
  rw [if_neg (by omega)]
  simp only [hc]
  unfold solveBanded
  rw [if_neg (by simp), if_neg (by omega), if_neg (by simp), if_neg (by omega), hxx]
  simp only [hxy, hp]
  exact ⟨_, rfl⟩

/-- A limit of the algorithm, not excluded by the documentation: when the band part (without the
corners) is singular `solve_periodic` fails, even if the cyclic system has a unique solution. -/
theorem C37_singular_band_error {S : Scipy K} (hS : ScipyOK S) {l u : ℕ} {ab : Arr2 K} (b : ℕ → V)
    (hn : ab.n ≠ 0) (hlu : l + u ≤ ab.n) (hm : ab.m = l + u + 1)
    (hband : ¬ Nonsing ab.n (bandMat l u ab.get)) :
    solvePeriodic S l u ab ab.n b = .error .linAlgError := by
  obtain ⟨corn, hc, -⟩ := cornMat_spec ab hm rfl hlu
  have hxx := hS.banded_singular l u ab.n ab.get b hband
  unfold solvePeriodic
  simp only [bind, Except.bind, pure, Except.pure, throw, throwThe, MonadExceptOf.throw]
  rw [if_neg (by tauto)]
  try simp only
  rw [if_neg (by omega)]
  simp only [hc]
  unfold solveBanded
  rw [if_neg (by simp), if_neg (by omega), hxx]

/-- **C37**: a singular cyclic system is rejected with LinAlgError (band part nonsingular; otherwise see
`C37_singular_band_error`). -/
theorem C37_singular_error {S : Scipy K} (hS : ScipyOK S) {l u : ℕ} {ab : Arr2 K} (b : ℕ → V)
    (hn : ab.n ≠ 0) (hlu : l + u ≤ ab.n) (hm : ab.m = l + u + 1)
    (hcyc : ¬ Nonsing ab.n (cyclicMat ab.n l u ab.get)) :
    solvePeriodic S l u ab ab.n b = .error .linAlgError := by
  by_cases hband : Nonsing ab.n (bandMat l u ab.get)
  swap
  · exact C37_singular_band_error hS b hn hlu hm hband
  obtain ⟨corn, hc, -⟩ := cornMat_spec ab hm rfl hlu
  obtain ⟨xx, hxx⟩ := hS.banded_complete l u ab.n ab.get b hband
  obtain ⟨xy, hxy⟩ := hS.banded_complete l u ab.n ab.get (bbMat K l u ab.n) hband
  have hd := cyclic_det hlu hm hc (hS.banded_sound _ _ _ _ _ _ hxy)
  have hns : ¬ Nonsing (l + u) (fun i j => (if i = j then 1 else 0) +
      ∑ k ∈ Finset.range (l + u), corn i k * xy ((maskList l u ab.n).getD k 0) j) := by
    intro h0
    apply hcyc
    unfold Nonsing
    rw [hd]
    exact mul_ne_zero hband h0
  have hp := hS.dense_singular (V := V) (l + u) _
    (fun i => ∑ k ∈ Finset.range (l + u), corn i k • xx ((maskList l u ab.n).getD k 0)) hns
  unfold solvePeriodic
  simp only [bind, Except.bind, pure, Except.pure, throw, throwThe, MonadExceptOf.throw]
  rw [if_neg (by tauto)]
  try simp only
  rw [if_neg (by omega)]
  simp only [hc]
  unfold solveBanded
  rw [if_neg (by simp), if_neg (by omega), if_neg (by simp), if_neg (by omega), hxx]
  simp only [hxy, hp]

/-- **C37**, complete description for consistent shapes: `solve_periodic` returns exactly when the band part and the
cyclic matrix are nonsingular, and raises LinAlgError otherwise. -/
theorem C37_outcome {S : Scipy K} (hS : ScipyOK S) {l u : ℕ} {ab : Arr2 K} (b : ℕ → V)
    (hn : ab.n ≠ 0) (hlu : l + u ≤ ab.n) (hm : ab.m = l + u + 1) :
    ((∃ x, solvePeriodic S l u ab ab.n b = .ok x) ↔
      Nonsing ab.n (bandMat l u ab.get) ∧ Nonsing ab.n (cyclicMat ab.n l u ab.get)) ∧
    ((¬ ∃ x, solvePeriodic S l u ab ab.n b = .ok x) → solvePeriodic S l u ab ab.n b = .error .linAlgError) := by
  by_cases h1 : Nonsing ab.n (bandMat l u ab.get)
  · by_cases h2 : Nonsing ab.n (cyclicMat ab.n l u ab.get)
    · exact ⟨⟨fun _ => ⟨h1, h2⟩, fun h => C37_succeeds hS b hn hlu hm h.1 h.2⟩,
        fun h => absurd (C37_succeeds hS b hn hlu hm h1 h2) h⟩
    · have := C37_singular_error hS b hn hlu hm h2
      rw [this]
      exact ⟨⟨fun ⟨x, hx⟩ => (by cases hx), fun h => absurd h.2 h2⟩, fun _ => rfl⟩
  · have := C37_singular_band_error hS b hn hlu hm h1
    rw [this]
    exact ⟨⟨fun ⟨x, hx⟩ => (by cases hx), fun h => absurd h.1 h1⟩, fun _ => rfl⟩

/-- A singular cyclic system with a nonsingular band part: `[[1, -1], [-1, 1]]`, `(l,u) = (1,0)`. -/
example : Nonsing 2 (bandMat 1 0 (fun r _ => if r = 0 then (1 : ℚ) else -1)) ∧
    ¬ Nonsing 2 (cyclicMat 2 1 0 (fun r _ => if r = 0 then (1 : ℚ) else -1)) := by
  unfold Nonsing; decide +kernel

/-- Example of that limit: the 2 × 2 permutation matrix as a cyclic band matrix with `(l,u) = (1,0)`. -/
example : ¬ Nonsing 2 (bandMat 1 0 (fun r _ => (r : ℚ))) ∧
    Nonsing 2 (cyclicMat 2 1 0 (fun r _ => (r : ℚ))) := by
  unfold Nonsing; decide +kernel

/-- Non-trivial instance: `(l, u) = (2, 1)`, the 5 × 5 cyclic matrix with `ab = [[1,..],[5,..],[2,..],[1,..]]`. -/
def exCyc : Arr2 ℚ := ⟨4, 5, fun r j => [1 + j, 7, 2, 1 + r][r]!⟩

example : (solvePeriodic (exactScipy ℚ) 2 1 exCyc 5 (fun i => (i : ℚ))).toOption.map (fun x =>
    (List.range 5).map fun i => ∑ j ∈ Finset.range 5, cyclicMat 5 2 1 exCyc.get i j * x j) =
    some [0, 1, 2, 3, 4] := by decide +kernel

/-! ### C39 -/

theorem rollIdx_pos {n s j : ℕ} (hj : j < n) (hs : s ≤ j) : rollIdx n (s : ℤ) j = j - s := by
  unfold rollIdx
  have : ((j : ℤ) - s) = ((j - s : ℕ) : ℤ) := by push_cast [hs]; ring
  rw [this]
  have : (((j - s : ℕ) : ℤ) % (n : ℤ)) = ((j - s) % n : ℕ) := by push_cast; rfl
  rw [this, Int.toNat_natCast, Nat.mod_eq_of_lt (by omega)]

theorem rollIdx_of_mod {n s i j : ℕ} (hi : i < n) (h : j % n = (i + s) % n) : rollIdx n (s : ℤ) j = i := by
  unfold rollIdx
  have h1 : ((j : ℤ) - s) % n = (i : ℤ) % n := by
    have : (j : ℤ) % n = ((i + s : ℕ) : ℤ) % n := by exact_mod_cast h
    rw [Int.sub_emod, this]
    push_cast
    rw [← Int.sub_emod]; congr 1; ring
  rw [h1]
  have : (i : ℤ) % n = ((i % n : ℕ) : ℤ) := by push_cast; rfl
  rw [this, Int.toNat_natCast, Nat.mod_eq_of_lt hi]

theorem rollIdx_neg_one (n s j : ℕ) : rollIdx n (-1 - (s : ℤ)) j = (j + (s + 1)) % n := by
  unfold rollIdx
  have : ((j : ℤ) - (-1 - (s : ℤ))) % n = ((j + (s + 1)) % n : ℕ) := by push_cast; congr 1; ring
  rw [this, Int.toNat_natCast]

/-- Adding the bandwidth on both sides of a congruence. -/
theorem mod_shift (n a b c : ℕ) : (a + c) % n = (b + c) % n ↔ a % n = b % n := by
  constructor
  · intro h; exact Nat.ModEq.add_right_cancel' c h
  · intro h; exact Nat.ModEq.add_right c h

/-- Splitting the sum over the `2u+1` diagonals. -/
theorem sum_diagonals (f : ℕ → K) (u : ℕ) :
    ∑ r ∈ Finset.range (u + u + 1), f r =
      f u + ∑ s ∈ Finset.range u, (f (u + (s + 1)) + f (u - (s + 1))) := by
  rw [show u + u + 1 = u + (1 + u) by ring, Finset.sum_range_add, Finset.sum_range_add,
    Finset.sum_range_one, Finset.sum_add_distrib, ← Finset.sum_range_reflect f u]
  have : ∀ s ∈ Finset.range u, f (u - 1 - s) = f (u - (s + 1)) := fun s _ => by congr 1; omega
  rw [Finset.sum_congr rfl this]
  have : ∀ s ∈ Finset.range u, f (u + (1 + s)) = f (u + (s + 1)) := fun s _ => by congr 1; omega
  rw [Finset.sum_congr rfl this]
  simp only [add_zero]
  ring

/-- Specification: the symmetric cyclic matrix given by its lower half, `ab[r,j] = A[j+r, j]`
(row index modulo `n`) for `r = 0..u`, and the same elements at the transposed positions. -/
def symCyclic (n u : ℕ) (ab : ℕ → ℕ → K) (i j : ℕ) : K :=
  (if i = j then ab 0 j else 0) +
  ∑ s ∈ Finset.range u, ((if i % n = (j + (s + 1)) % n then ab (s + 1) j else 0) +
    if j % n = (i + (s + 1)) % n then ab (s + 1) i else 0)

/-- Specification: the symmetric band matrix given by its lower half. -/
def symBand (u : ℕ) (ab : ℕ → ℕ → K) (i j : ℕ) : K :=
  if j ≤ i then (if i - j ≤ u then ab (i - j) j else 0) else (if j - i ≤ u then ab (j - i) i else 0)

/-- Specification: the lower half of the symmetric matrix whose upper half is `ab[u-r, j] = A[j-r, j]`:
`A[j+r, j] = A[j, j+r] = ab[u-r, j+r]` (indices modulo `n`). -/
def upperAsLower (n u : ℕ) (ab : ℕ → ℕ → K) (r j : ℕ) : K := ab (u - r) ((j + r) % n)

/-- The half of the matrix as the user gives it. -/
def halfOf (n u : ℕ) (ab : ℕ → ℕ → K) (lower : Bool) : ℕ → ℕ → K :=
  if lower then ab else upperAsLower n u ab

theorem symgen_cyclic (u : ℕ) (ab : Arr2 K) (lower : Bool) {i j : ℕ} (hi : i < ab.n) (hj : j < ab.n) :
    cyclicMat ab.n u u (symgen u ab lower).get i j = symCyclic ab.n u (halfOf ab.n u ab.get lower) i j := by
  unfold cyclicMat symCyclic
  rw [sum_diagonals]
  congr 1
  · have : ((i + u) % ab.n = (j + u) % ab.n) ↔ i = j := by
      rw [mod_shift, Nat.mod_eq_of_lt hi, Nat.mod_eq_of_lt hj]
    simp only [this]
    by_cases h : i = j
    · rw [if_pos h, if_pos h]
      cases lower
      · simp [symgen, halfOf, upperAsLower, Nat.mod_eq_of_lt hj]
      · simp [symgen, halfOf]
    · rw [if_neg h, if_neg h]
  · refine Finset.sum_congr rfl fun s hs => ?_
    rw [Finset.mem_range] at hs
    congr 1
    · have : ((i + u) % ab.n = (j + (u + (s + 1))) % ab.n) ↔ i % ab.n = (j + (s + 1)) % ab.n := by
        rw [show j + (u + (s + 1)) = (j + (s + 1)) + u by ring, mod_shift]
      simp only [this]
      by_cases h : i % ab.n = (j + (s + 1)) % ab.n
      · rw [if_pos h, if_pos h]
        cases lower
        · simp only [symgen, halfOf, upperAsLower, Bool.false_eq_true, if_false]
          rw [if_neg (by omega), show u + (s + 1) - (u + 1) = s by omega, rollIdx_neg_one]
          congr 1; omega
        · simp only [symgen, halfOf, if_true]
          rw [if_neg (by omega), show u + (s + 1) - u = s + 1 by omega]
      · rw [if_neg h, if_neg h]
    · have : ((i + u) % ab.n = (j + (u - (s + 1))) % ab.n) ↔ j % ab.n = (i + (s + 1)) % ab.n := by
        rw [← mod_shift ab.n _ _ (s + 1), show j + (u - (s + 1)) + (s + 1) = j + u by omega,
          show i + u + (s + 1) = (i + (s + 1)) + u by ring, mod_shift]
        exact eq_comm
      simp only [this]
      by_cases h : j % ab.n = (i + (s + 1)) % ab.n
      · rw [if_pos h, if_pos h]
        cases lower
        · simp only [symgen, halfOf, upperAsLower, Bool.false_eq_true, if_false]
          rw [if_pos (by omega), ← h, Nat.mod_eq_of_lt hj]
        · simp only [symgen, halfOf, if_true]
          rw [if_pos (by omega), show u - (u - (s + 1)) = s + 1 by omega, rollIdx_of_mod hi h]
      · rw [if_neg h, if_neg h]

theorem symgen_band (u : ℕ) (ab : Arr2 K) (lower : Bool) {i j : ℕ} (hi : i < ab.n) (hj : j < ab.n) :
    bandMat u u (symgen u ab lower).get i j = symBand u (halfOf ab.n u ab.get lower) i j := by
  unfold bandMat symBand
  by_cases hji : j ≤ i
  · rw [if_pos hji]
    by_cases h : i - j ≤ u
    · rw [if_pos (by omega), if_pos h]
      cases lower
      · simp only [symgen, halfOf, upperAsLower, Bool.false_eq_true, if_false]
        by_cases h0 : i = j
        · subst h0
          rw [if_pos (by omega)]
          simp [Nat.mod_eq_of_lt hi]
        · rw [if_neg (by omega), show u + i - j - (u + 1) = i - j - 1 by omega, rollIdx_neg_one]
          congr 1
          · omega
          · congr 1; omega
      · simp only [symgen, halfOf, if_true]
        rw [if_neg (by omega)]
        congr 1; omega
    · rw [if_neg (by omega), if_neg h]
  · rw [if_neg hji]
    by_cases h : j - i ≤ u
    · rw [if_pos (by omega), if_pos h]
      cases lower
      · simp only [symgen, halfOf, upperAsLower, Bool.false_eq_true, if_false]
        rw [if_pos (by omega), Nat.mod_eq_of_lt (by omega)]
        congr 1 <;> omega
      · simp only [symgen, halfOf, if_true]
        rw [if_pos (by omega), show u - (u + i - j) = j - i by omega, rollIdx_pos hj (by omega)]
        congr 1; omega
    · rw [if_neg (by omega), if_neg h]

/-- The two specified matrices are symmetric. -/
theorem C39_symmetric (n u : ℕ) (ab : ℕ → ℕ → K) (i j : ℕ) :
    symCyclic n u ab i j = symCyclic n u ab j i ∧ symBand u ab i j = symBand u ab j i := by
  constructor
  · unfold symCyclic
    congr 1
    · by_cases h : i = j
      · subst h; rfl
      · rw [if_neg h, if_neg (Ne.symm h)]
    · exact Finset.sum_congr rfl fun s _ => add_comm _ _
  · unfold symBand
    rcases Nat.lt_trichotomy i j with h | h | h
    · rw [if_neg (show ¬ j ≤ i by omega), if_pos h.le]
    · subst h; rfl
    · rw [if_pos h.le, if_neg (show ¬ i ≤ j by omega)]

theorem solves_congr {n : ℕ} {a a' : ℕ → ℕ → K} {x b : ℕ → V} (h : ∀ i < n, ∀ j < n, a i j = a' i j)
    (hs : Solves n a x b) : Solves n a' x b := by
  intro i hi
  rw [← hs i hi]
  refine Finset.sum_congr rfl fun j hj => ?_
  rw [h i hi j (Finset.mem_range.mp hj)]

/-- **C39**, cyclic — `solves_periodic(ab, b, lower=...)`: what it returns solves the symmetric cyclic system
whose lower (upper) half is `ab`. -/
theorem C39_solves_periodic {S : Scipy K} (hS : ScipyOK S) {ab : Arr2 K} {nb : ℕ} {b x : ℕ → V}
    {lower : Bool} (h : solvesPeriodic S ab nb b lower = .ok x) :
    Solves ab.n (symCyclic ab.n (ab.m - 1) (halfOf ab.n (ab.m - 1) ab.get lower)) x b := by
  unfold solvesPeriodic at h
  have hn : (symgen (ab.m - 1) ab lower).n = ab.n := by cases lower <;> rfl
  have := (C37_solve_periodic hS h).2.2
  rw [hn] at this
  exact solves_congr (fun i hi j hj => symgen_cyclic _ ab lower hi hj) this

/-- **C39**, band — the same for `solves_banded`. -/
theorem C39_solves_banded {S : Scipy K} (hS : ScipyOK S) {ab : Arr2 K} {nb : ℕ} {b x : ℕ → V}
    {lower : Bool} (h : solvesBanded S ab nb b lower = .ok x) :
    Solves ab.n (symBand (ab.m - 1) (halfOf ab.n (ab.m - 1) ab.get lower)) x b := by
  unfold solvesBanded solveBanded at h
  have hn : (symgen (ab.m - 1) ab lower).n = ab.n := by cases lower <;> rfl
  split at h
  · cases h
  split at h
  · cases h
  have := hS.banded_sound _ _ _ _ _ _ h
  rw [hn] at this
  exact solves_congr (fun i hi j hj => symgen_band _ ab lower hi hj) this

theorem nonsing_congr {n : ℕ} {a a' : ℕ → ℕ → K} (h : ∀ i < n, ∀ j < n, a i j = a' i j) :
    Nonsing n a ↔ Nonsing n a' := by
  unfold Nonsing
  have : (Matrix.of fun i j : Fin n => a i j) = Matrix.of fun i j : Fin n => a' i j := by
    ext i j; exact h i i.2 j j.2
  rw [this]

/-- **C39**, success of `solves_banded`: every nonsingular symmetric system (not necessarily positive
definite) with consistent shapes is solved. -/
theorem C39_banded_succeeds {S : Scipy K} (hS : ScipyOK S) {ab : Arr2 K} (b : ℕ → V) (lower : Bool)
    (hns : Nonsing ab.n (symBand (ab.m - 1) (halfOf ab.n (ab.m - 1) ab.get lower))) :
    ∃ x, solvesBanded S ab ab.n b lower = .ok x := by
  have hn : (symgen (ab.m - 1) ab lower).n = ab.n := by cases lower <;> rfl
  have hm : (symgen (ab.m - 1) ab lower).m = 2 * (ab.m - 1) + 1 := by cases lower <;> rfl
  unfold solvesBanded solveBanded
  rw [if_neg (by simp [hn]), if_neg (by omega), hn]
  exact hS.banded_complete _ _ _ _ _ ((nonsing_congr (fun i hi j hj => symgen_band _ ab lower hi hj)).mpr hns)

/-- **C39**, success of `solves_periodic`. -/
theorem C39_periodic_succeeds {S : Scipy K} (hS : ScipyOK S) {ab : Arr2 K} (b : ℕ → V) (lower : Bool)
    (hn0 : ab.n ≠ 0) (hsz : 2 * (ab.m - 1) ≤ ab.n)
    (hband : Nonsing ab.n (symBand (ab.m - 1) (halfOf ab.n (ab.m - 1) ab.get lower)))
    (hcyc : Nonsing ab.n (symCyclic ab.n (ab.m - 1) (halfOf ab.n (ab.m - 1) ab.get lower))) :
    ∃ x, solvesPeriodic S ab ab.n b lower = .ok x := by
  have hn : (symgen (ab.m - 1) ab lower).n = ab.n := by cases lower <;> rfl
  have hm : (symgen (ab.m - 1) ab lower).m = 2 * (ab.m - 1) + 1 := by cases lower <;> rfl
  have := C37_succeeds hS (l := ab.m - 1) (u := ab.m - 1) (ab := symgen (ab.m - 1) ab lower) b
    (by rw [hn]; exact hn0) (by omega) (by omega)
    (by rw [hn]; exact (nonsing_congr (fun i hi j hj => symgen_band _ ab lower hi hj)).mpr hband)
    (by rw [hn]; exact (nonsing_congr (fun i hi j hj => symgen_cyclic _ ab lower hi hj)).mpr hcyc)
  rwa [hn] at this

/-- Non-trivial instance: 4 × 4, bandwidth 1, lower and upper form of the same symmetric matrix
(diagonal 5, 6, 7, 8; off-diagonal a10=1, a21=2, a32=3, A03=4). -/
def exLow : Arr2 ℚ := ⟨2, 4, fun r j => if r = 0 then 5 + j else 1 + j⟩
def exUp : Arr2 ℚ := ⟨2, 4, fun r j => if r = 1 then 5 + j else (((j + 3) % 4 + 1 : ℕ) : ℚ)⟩

example : (List.range 4).map (fun i => (List.range 4).map (symCyclic 4 1 exLow.get i)) =
    [[5, 1, 0, 4], [1, 6, 2, 0], [0, 2, 7, 3], [4, 0, 3, 8]] ∧
  (List.range 4).map (fun i => (List.range 4).map (symCyclic 4 1 (halfOf 4 1 exUp.get false) i)) =
    [[5, 1, 0, 4], [1, 6, 2, 0], [0, 2, 7, 3], [4, 0, 3, 8]] := by decide +kernel

example : (solvesPeriodic (exactScipy ℚ) exLow 4 (fun i => (i : ℚ)) true).toOption.map (fun x =>
    (List.range 4).map fun i => ∑ j ∈ Finset.range 4, symCyclic 4 1 exLow.get i j * x j) =
    some [0, 1, 2, 3] ∧
  (solvesBanded (exactScipy ℚ) exLow 4 (fun i => (i : ℚ)) true).toOption.map (fun x =>
    (List.range 4).map fun i => ∑ j ∈ Finset.range 4, symBand 1 exLow.get i j * x j) =
    some [0, 1, 2, 3] := by decide +kernel

end Npplus
