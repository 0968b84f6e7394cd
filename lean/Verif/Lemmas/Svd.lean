import Verif.Spec.Lsq
import Mathlib.Analysis.InnerProductSpace.Spectrum
import Mathlib.Analysis.InnerProductSpace.PiL2
import Mathlib.Analysis.Matrix.Spectrum
import Mathlib.Tactic

/-!
# Every real matrix has a thin singular value decomposition

So the hypothesis made about `scipy.linalg.svd` can be met for every input.
-/

set_option linter.unusedSectionVars false
namespace Npplus
open Npplus.Spec

theorem svd_wide {nc N : ℕ} (hle : nc ≤ N) (m : Matrix (Fin nc) (Fin N) ℝ) :
    ∃ (u : Fin nc → Fin nc → ℝ) (s : Fin nc → ℝ) (v : Fin nc → Fin N → ℝ),
      (∀ i t, m i t = ∑ j, u i j * s j * v j t) ∧ (∀ j j', ∑ i, u i j * u i j' = if j = j' then 1 else 0) ∧
      (∀ j j', ∑ t, v j t * v j' t = if j = j' then 1 else 0) ∧ (∀ j, 0 ≤ s j) ∧ ∀ j j', j ≤ j' → s j' ≤ s j := by
  have hA : (m * m.transpose).IsHermitian := by
    have := Matrix.isHermitian_mul_conjTranspose_self m
    simpa using this
  have hT : (Matrix.toEuclideanLin (m * m.transpose)).IsSymmetric := Matrix.isSymmetric_toEuclideanLin_iff.2 hA
  have hn : Module.finrank ℝ (EuclideanSpace ℝ (Fin nc)) = nc := by simp
  set e := hT.eigenvectorBasis hn with he
  set lam := hT.eigenvalues hn with hlam
  have hee : ∀ j j', ∑ i, e j i * e j' i = if j = j' then 1 else 0 := by
    intro j j'
    have := orthonormal_iff_ite.1 e.orthonormal j j'
    rw [PiLp.inner_apply] at this
    simp only [RCLike.inner_apply, conj_trivial] at this
    rw [← this]
    exact Finset.sum_congr rfl fun i _ => mul_comm _ _
  have hev : ∀ j i, ∑ i', (∑ t, m i t * m i' t) * e j i' = lam j * e j i := by
    intro j i
    have := congrArg (fun x : EuclideanSpace ℝ (Fin nc) => x i) (hT.apply_eigenvectorBasis hn j)
    simp only [Matrix.toEuclideanLin_apply, PiLp.smul_apply, smul_eq_mul] at this
    simp only [Matrix.mulVec, dotProduct, Matrix.mul_apply, Matrix.transpose_apply] at this
    exact this
  have hcomp : ∀ i i', ∑ j, e j i * e j i' = if i = i' then 1 else 0 := by
    intro i i'
    have h1 : (Matrix.of fun j i => e j i) * (Matrix.of fun i j => e j i) = (1 : Matrix (Fin nc) (Fin nc) ℝ) := by
      funext j j'
      rw [Matrix.mul_apply, Matrix.one_apply]
      exact hee j j'
    have h3 := mul_eq_one_comm.1 h1
    have h2 : ((Matrix.of fun i j => e j i) * (Matrix.of fun j i => e j i)) i i' =
        (1 : Matrix (Fin nc) (Fin nc) ℝ) i i' := by rw [h3]
    rw [Matrix.mul_apply, Matrix.one_apply] at h2
    exact h2
  set w : Fin nc → EuclideanSpace ℝ (Fin N) := fun j => WithLp.toLp 2 (fun t => ∑ i, e j i * m i t) with hw
  have hww : ∀ j j', ∑ t, w j t * w j' t = if j = j' then lam j' else 0 := by
    intro j j'
    calc ∑ t, w j t * w j' t = ∑ t, ∑ i, ∑ i', e j i * ((m i t * m i' t) * e j' i') := by
          refine Finset.sum_congr rfl fun t _ => ?_
          simp only [hw]
          rw [Finset.sum_mul_sum]
          exact Finset.sum_congr rfl fun i _ => Finset.sum_congr rfl fun i' _ => by ring
      _ = ∑ i, e j i * ∑ i', (∑ t, m i t * m i' t) * e j' i' := by
          rw [Finset.sum_comm]
          refine Finset.sum_congr rfl fun i _ => ?_
          rw [Finset.sum_comm, Finset.mul_sum]
          refine Finset.sum_congr rfl fun i' _ => ?_
          rw [Finset.sum_mul, Finset.mul_sum]
      _ = ∑ i, lam j' * (e j i * e j' i) := by
          refine Finset.sum_congr rfl fun i _ => ?_
          rw [hev]; ring
      _ = _ := by
          rw [← Finset.mul_sum, hee]
          split_ifs <;> simp
  have hnn : ∀ j, 0 ≤ lam j := by
    intro j
    have := hww j j
    rw [if_pos rfl] at this
    rw [← this]
    exact Finset.sum_nonneg fun t _ => mul_self_nonneg _
  have hw0 : ∀ j, lam j = 0 → ∀ t, w j t = 0 := by
    intro j hj t
    have := hww j j
    rw [if_pos rfl, hj] at this
    have := (Finset.sum_eq_zero_iff_of_nonneg fun t _ => mul_self_nonneg (w j t)).1 this t (Finset.mem_univ t)
    exact mul_self_eq_zero.1 this
  set v' : Fin N → EuclideanSpace ℝ (Fin N) := fun t =>
    if h : (t : ℕ) < nc then (1 / Real.sqrt (lam ⟨t, h⟩)) • w ⟨t, h⟩ else 0 with hv'
  have horth : Orthonormal ℝ (Set.restrict {t : Fin N | ∃ h : (t : ℕ) < nc, lam ⟨t, h⟩ ≠ 0} v') := by
    rw [orthonormal_iff_ite]
    rintro ⟨t, ht, hlt⟩ ⟨t', ht', hlt'⟩
    have e1 : Set.restrict {t : Fin N | ∃ h : (t : ℕ) < nc, lam ⟨t, h⟩ ≠ 0} v' ⟨t, ht, hlt⟩ =
        (1 / Real.sqrt (lam ⟨t, ht⟩)) • w ⟨t, ht⟩ := dif_pos ht
    have e2 : Set.restrict {t : Fin N | ∃ h : (t : ℕ) < nc, lam ⟨t, h⟩ ≠ 0} v' ⟨t', ht', hlt'⟩ =
        (1 / Real.sqrt (lam ⟨t', ht'⟩)) • w ⟨t', ht'⟩ := dif_pos ht'
    rw [PiLp.inner_apply, e1, e2]
    simp only [RCLike.inner_apply, conj_trivial, PiLp.smul_apply, smul_eq_mul]
    have : ∑ x, 1 / Real.sqrt (lam ⟨t', ht'⟩) * w ⟨t', ht'⟩ x * (1 / Real.sqrt (lam ⟨t, ht⟩) * w ⟨t, ht⟩ x) =
        1 / Real.sqrt (lam ⟨t', ht'⟩) * (1 / Real.sqrt (lam ⟨t, ht⟩)) * ∑ x, w ⟨t, ht⟩ x * w ⟨t', ht'⟩ x := by
      rw [Finset.mul_sum]
      exact Finset.sum_congr rfl fun x _ => by ring
    rw [this, hww]
    by_cases htt : t = t'
    · subst htt
      simp only [if_true]
      have h1 := Real.mul_self_sqrt (hnn ⟨t, ht⟩)
      have h2 : Real.sqrt (lam ⟨t, ht⟩) ≠ 0 := by
        intro h; rw [h] at h1; exact hlt (by linarith)
      field_simp
      rw [sq, h1]
    · rw [if_neg (by simpa [Fin.ext_iff] using htt), if_neg (by simpa using htt), mul_zero]
  obtain ⟨b, hb⟩ := horth.exists_orthonormalBasis_extension_of_card_eq (by simp)
  have hbb : ∀ t t', ∑ x, b t x * b t' x = if t = t' then 1 else 0 := by
    intro j j'
    have := orthonormal_iff_ite.1 b.orthonormal j j'
    rw [PiLp.inner_apply] at this
    simp only [RCLike.inner_apply, conj_trivial] at this
    rw [← this]
    exact Finset.sum_congr rfl fun i _ => mul_comm _ _
  refine ⟨fun i j => e j i, fun j => Real.sqrt (lam j), fun j t => b (Fin.castLE hle j) t, ?_, hee, ?_, ?_, ?_⟩
  · intro i t
    have key : ∀ j, Real.sqrt (lam j) * b (Fin.castLE hle j) t = w j t := by
      intro j
      by_cases hj : lam j = 0
      · rw [hw0 j hj, hj]; simp
      · rw [hb (Fin.castLE hle j) ⟨j.2, hj⟩]
        have h1 := Real.mul_self_sqrt (hnn j)
        have h2 : Real.sqrt (lam j) ≠ 0 := by
          intro h; rw [h] at h1; exact hj (by linarith)
        have h3 : v' (Fin.castLE hle j) = (1 / Real.sqrt (lam j)) • w j := by
          exact dif_pos j.2
        rw [h3, PiLp.smul_apply, smul_eq_mul]
        field_simp
    calc m i t = ∑ i', (if i = i' then 1 else 0) * m i' t := by simp
      _ = ∑ i', (∑ j, e j i * e j i') * m i' t := by
          exact Finset.sum_congr rfl fun i' _ => by rw [hcomp]
      _ = ∑ j, e j i * w j t := by
          simp only [hw, Finset.sum_mul, Finset.mul_sum]
          rw [Finset.sum_comm]
          exact Finset.sum_congr rfl fun j _ => Finset.sum_congr rfl fun i' _ => by ring
      _ = _ := Finset.sum_congr rfl fun j _ => by rw [mul_assoc, key]
  · intro j j'
    rw [hbb]
    simp [Fin.ext_iff]
  · exact fun j => Real.sqrt_nonneg _
  · exact fun j j' h => Real.sqrt_le_sqrt (hT.eigenvalues_antitone hn h)

/-- Every real matrix has a thin singular value decomposition. -/
theorem exists_svd {nc N : ℕ} (m : Matrix (Fin nc) (Fin N) ℝ) : ∃ d : SVD ℝ nc N, IsSVD m d := by
  rcases le_total nc N with h | h
  · obtain ⟨u, s, v, h1, h2, h3, h4, h5⟩ := svd_wide h m
    have e : min nc N = nc := min_eq_left h
    have : ∀ k, k = nc → ∃ (u : Fin nc → Fin k → ℝ) (s : Fin k → ℝ) (v : Fin k → Fin N → ℝ),
      (∀ i t, m i t = ∑ j, u i j * s j * v j t) ∧ (∀ j j', ∑ i, u i j * u i j' = if j = j' then 1 else 0) ∧
      (∀ j j', ∑ t, v j t * v j' t = if j = j' then 1 else 0) ∧ (∀ j, 0 ≤ s j) ∧ ∀ j j', j ≤ j' → s j' ≤ s j := by
      intro k hk; subst hk; exact ⟨u, s, v, h1, h2, h3, h4, h5⟩
    obtain ⟨u, s, v, h1, h2, h3, h4, h5⟩ := this _ e
    exact ⟨⟨u, s, v⟩, h1, h2, h3, h4, h5⟩
  · obtain ⟨u, s, v, h1, h2, h3, h4, h5⟩ := svd_wide h m.transpose
    have e : min nc N = N := min_eq_right h
    have : ∀ k, k = N → ∃ (u : Fin nc → Fin k → ℝ) (s : Fin k → ℝ) (v : Fin k → Fin N → ℝ),
      (∀ i t, m i t = ∑ j, u i j * s j * v j t) ∧ (∀ j j', ∑ i, u i j * u i j' = if j = j' then 1 else 0) ∧
      (∀ j j', ∑ t, v j t * v j' t = if j = j' then 1 else 0) ∧ (∀ j, 0 ≤ s j) ∧ ∀ j j', j ≤ j' → s j' ≤ s j := by
      intro k hk; subst hk
      refine ⟨fun i j => v j i, s, fun j t => u t j, fun i t => ?_, h3, h2, h4, h5⟩
      have := h1 t i
      rw [Matrix.transpose_apply] at this
      rw [this]
      exact Finset.sum_congr rfl fun j _ => by ring
    obtain ⟨u, s, v, h1, h2, h3, h4, h5⟩ := this _ e
    exact ⟨⟨u, s, v⟩, h1, h2, h3, h4, h5⟩

open Classical in
/-- An `svd` that returns a decomposition whenever there is one. -/
noncomputable def exactSVD (K : Type) [Field K] [LinearOrder K] (nc N : ℕ) (m : Matrix (Fin nc) (Fin N) K) :
    Except PyErr (SVD K nc N) :=
  if h : ∃ d, IsSVD m d then .ok h.choose else .error .linAlgError

theorem exactSVD_ok {K : Type} [Field K] [LinearOrder K] (nc N : ℕ) (m : Matrix (Fin nc) (Fin N) K) (d : SVD K nc N)
    (h : exactSVD K nc N m = .ok d) : IsSVD m d := by
  unfold exactSVD at h
  split_ifs at h with hx
  cases h
  exact hx.choose_spec

theorem exactSVD_real (nc N : ℕ) (m : Matrix (Fin nc) (Fin N) ℝ) : ∃ d, exactSVD ℝ nc N m = .ok d := by
  unfold exactSVD
  rw [dif_pos (exists_svd m)]
  exact ⟨_, rfl⟩

end Npplus
