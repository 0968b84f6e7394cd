import Verif.Props.Regress
import Mathlib.Analysis.InnerProductSpace.PiL2

/-!
# The result of `regress` as a linear function of the data
-/

set_option linter.unusedSectionVars false
namespace Npplus
open Npplus.Spec
namespace RegLin

variable {nc N : ℕ} {m : Matrix (Fin nc) (Fin N) ℝ} {d : SVD ℝ nc N} {rc : ℝ}

/-- the singular value is kept -/
def Kept (d : SVD ℝ nc N) (rc : ℝ) (j : Fin (min nc N)) : Prop := ∃ h0 : 0 < min nc N, rc * d.s ⟨0, h0⟩ < d.s j

open Classical in
/-- weight of datum `t` in coefficient `i` -/
noncomputable def wt (d : SVD ℝ nc N) (rc : ℝ) (i : Fin nc) (t : Fin N) : ℝ :=
  ∑ j, d.u i j * (if Kept d rc j then 1 / d.s j else 0) * d.v j t

theorem kept_pos (hrc : 0 < rc) (hd : IsSVD m d) {j : Fin (min nc N)} (h : Kept d rc j) : 0 < d.s j := by
  obtain ⟨h0, h⟩ := h
  have := hd.nonneg ⟨0, h0⟩
  nlinarith

open Classical in
/-- coefficients, covariances and residual in terms of the scaled data -/
theorem core (hrc : 0 < rc) (hd : IsSVD m d) {b r0 : Fin N → ℝ} {r : RegFit ℝ nc N} (h : regressCore d rc m b r0 = .ok r) :
    (∀ i, r.p i = ∑ t, wt d rc i t * b t) ∧ (∀ i i', r.pcov i i' = ∑ t, wt d rc i t * wt d rc i' t) ∧
      r.chi2 * max (r.ndof : ℝ) 1 = ∑ t, b t ^ 2 - ∑ j, (if Kept d rc j then (∑ t, d.v j t * b t) ^ 2 else 0) ∧
      r.ndof = (N : ℤ) - ((Finset.univ.filter fun j => Kept d rc j).card : ℤ) ∧
      (∀ j, r.s j = if Kept d rc j then d.s j else 0) := by
  obtain ⟨keep, hs, hpos, hk, -, hp, hn, hpc, hc, -⟩ := core_ok hrc hd h
  have hkk : ∀ j, (keep j = true) = Kept d rc j := fun j => propext (hk j)
  simp only [hkk] at hs hp hn hpc
  refine ⟨fun i => ?_, fun i i' => ?_, ?_, ?_, hs⟩
  · rw [hp]
    simp only [wt, Finset.sum_mul]
    rw [Finset.sum_comm]
    refine Finset.sum_congr rfl fun j _ => ?_
    split_ifs
    · rw [Finset.mul_sum, Finset.sum_mul]
      exact Finset.sum_congr rfl fun t _ => by ring
    · simp
  · rw [hpc]
    have := ortho_sum (fun j t => d.v j t) hd.vv (fun j => d.u i j * (if Kept d rc j then 1 / d.s j else 0))
      (fun j => d.u i' j * (if Kept d rc j then 1 / d.s j else 0))
    exact this.symm
  · have hmax : (0 : ℝ) < max (r.ndof : ℝ) 1 := lt_max_of_lt_right one_pos
    rw [hc, div_mul_cancel₀ _ hmax.ne', resid_coord hd]
    have : ∀ j, ∑ i, r.p i * d.u i j = if Kept d rc j then 1 / d.s j * ∑ t, d.v j t * b t else 0 :=
      fun j => p_coord hd _ r.p hp j
    simp only [this]
    have e : ∀ A B C D : ℝ, A = D - C → A + (B - D) = B - C := by intros; linarith
    apply e
    rw [← Finset.sum_sub_distrib]
    refine Finset.sum_congr rfl fun j _ => ?_
    split_ifs with hj
    · have := (kept_pos hrc hd hj).ne'
      field_simp
      ring
    · ring
  · convert hn

open Classical in
/-- weights against the models -/
theorem wt_model (hrc : 0 < rc) (hd : IsSVD m d) (i i' : Fin nc) :
    ∑ t, wt d rc i t * m i' t = ∑ j, if Kept d rc j then d.u i j * d.u i' j else 0 := by
  have := ortho_sum (fun j t => d.v j t) hd.vv (fun j => d.u i j * (if Kept d rc j then 1 / d.s j else 0))
      (fun j => d.u i' j * d.s j)
  simp only [hd.eq]
  rw [show (∑ t, wt d rc i t * ∑ j, d.u i' j * d.s j * d.v j t) = _ from this]
  refine Finset.sum_congr rfl fun j _ => ?_
  split_ifs with hj
  · have := (kept_pos hrc hd hj).ne'
    field_simp
  · simp

/-- all directions kept: the weights reproduce the coefficients -/
theorem wt_exact (hrc : 0 < rc) (hd : IsSVD m d) (hn : nc ≤ N) (hall : ∀ j, Kept d rc j) (q : Fin nc → ℝ) (i : Fin nc) :
    ∑ t, wt d rc i t * ∑ i', q i' * m i' t = q i := by
  have huu : d.u.transpose * d.u = 1 := by
    funext j j'
    rw [Matrix.mul_apply, Matrix.one_apply]
    exact hd.uu j j'
  have huu' : d.u * d.u.transpose = 1 := by
    refine (Matrix.mul_eq_one_comm_of_card_eq _ _ _ ?_).1 huu
    simp [hn]
  have h1 : ∀ i', ∑ t, wt d rc i t * m i' t = if i = i' then 1 else 0 := by
    intro i'
    rw [wt_model hrc hd]
    have := congrFun (congrFun huu' i) i'
    rw [Matrix.mul_apply, Matrix.one_apply] at this
    simpa [hall] using this
  calc ∑ t, wt d rc i t * ∑ i', q i' * m i' t = ∑ i', q i' * ∑ t, wt d rc i t * m i' t := by
        simp only [Finset.mul_sum]
        rw [Finset.sum_comm]
        exact Finset.sum_congr rfl fun _ _ => Finset.sum_congr rfl fun _ _ => by ring
    _ = q i := by simp [h1]

open Classical in
/-- only zero singular values discarded: the fitted values of data on the model are the data -/
theorem wt_fit (hrc : 0 < rc) (hd : IsSVD m d) (hz : ∀ j, ¬ Kept d rc j → d.s j = 0) (q : Fin nc → ℝ) (t : Fin N) :
    ∑ i, (∑ t', wt d rc i t' * ∑ i', q i' * m i' t') * m i t = ∑ i, q i * m i t := by
  have h1 : ∀ i, ∑ t', wt d rc i t' * ∑ i', q i' * m i' t' =
      ∑ j, (if Kept d rc j then ∑ i', q i' * d.u i' j else 0) * d.u i j := by
    intro i
    calc _ = ∑ i', q i' * ∑ t, wt d rc i t * m i' t := by
          simp only [Finset.mul_sum]
          rw [Finset.sum_comm]
          exact Finset.sum_congr rfl fun _ _ => Finset.sum_congr rfl fun _ _ => by ring
      _ = _ := by
          simp only [wt_model hrc hd, Finset.mul_sum]
          rw [Finset.sum_comm]
          refine Finset.sum_congr rfl fun j _ => ?_
          split_ifs
          · rw [Finset.sum_mul]
            exact Finset.sum_congr rfl fun _ _ => by ring
          · simp
  rw [model_coord hd, model_coord hd]
  refine Finset.sum_congr rfl fun j _ => ?_
  rw [p_coord hd (fun j => if Kept d rc j then ∑ i', q i' * d.u i' j else 0) _ h1]
  split_ifs with hj
  · rfl
  · rw [hz j hj]; ring

/-- an orthonormal basis that extends the rows of `v` -/
theorem exists_basis (hd : IsSVD m d) : ∃ B : OrthonormalBasis (Fin N) ℝ (EuclideanSpace ℝ (Fin N)),
    ∀ (j : Fin (min nc N)) (t : Fin N), B (Fin.castLE (min_le_right nc N) j) t = d.v j t := by
  classical
  let w : Fin N → EuclideanSpace ℝ (Fin N) := fun i =>
    if h : (i : ℕ) < min nc N then WithLp.toLp 2 (d.v ⟨i, h⟩) else 0
  let s : Set (Fin N) := {i | (i : ℕ) < min nc N}
  have ho : Orthonormal ℝ (s.domRestrict w) := by
    rw [orthonormal_iff_ite]
    rintro ⟨i, hi⟩ ⟨i', hi'⟩
    have hi0 : (i : ℕ) < min nc N := hi
    have hi0' : (i' : ℕ) < min nc N := hi'
    have := hd.vv ⟨i, hi0⟩ ⟨i', hi0'⟩
    simp only [Set.domRestrict, w, dif_pos hi0, dif_pos hi0', PiLp.inner_apply]
    have e : (∑ t, inner ℝ (d.v ⟨i, hi0⟩ t) (d.v ⟨i', hi0'⟩ t)) = ∑ t, d.v ⟨i, hi0⟩ t * d.v ⟨i', hi0'⟩ t :=
      Finset.sum_congr rfl fun t _ => by simp [mul_comm]
    rw [e, this]
    simp [Subtype.ext_iff, Fin.ext_iff]
  obtain ⟨B, hB⟩ := ho.exists_orthonormalBasis_extension_of_card_eq (by simp)
  refine ⟨B, fun j t => ?_⟩
  have hj : ((Fin.castLE (min_le_right nc N) j : Fin N) : ℕ) < min nc N := j.2
  rw [hB _ hj]
  simp only [w, dif_pos hj]
  rfl

/-- the indices of the kept directions in that basis -/
noncomputable def keptIdx (d : SVD ℝ nc N) (rc : ℝ) : Finset (Fin N) := by
  classical
  exact (Finset.univ.filter fun j => Kept d rc j).map (Fin.castLEEmb (min_le_right nc N))

open Classical in
/-- the residual in that basis -/
theorem resid (hd : IsSVD m d) (hz : ∀ j, ¬ Kept d rc j → d.s j = 0)
    {B : OrthonormalBasis (Fin N) ℝ (EuclideanSpace ℝ (Fin N))}
    (hB : ∀ (j : Fin (min nc N)) (t : Fin N), B (Fin.castLE (min_le_right nc N) j) t = d.v j t) (q : Fin nc → ℝ)
    {b ε : Fin N → ℝ} (hb : ∀ t, b t = ∑ i, q i * m i t + ε t) :
    ∑ t, b t ^ 2 - ∑ j, (if Kept d rc j then (∑ t, d.v j t * b t) ^ 2 else 0) =
      ∑ i ∈ (keptIdx d rc)ᶜ, (∑ t, B i t * ε t) ^ 2 := by
  have h1 : ∑ t, b t ^ 2 = ∑ i, (∑ t, B i t * b t) ^ 2 := by
    have := B.sum_sq_inner_right (WithLp.toLp 2 b)
    rw [EuclideanSpace.real_norm_sq_eq] at this
    rw [show (∑ t, b t ^ 2) = ∑ t, (WithLp.toLp 2 b : EuclideanSpace ℝ (Fin N)) t ^ 2 from rfl, ← this]
    refine Finset.sum_congr rfl fun i _ => ?_
    congr 1
    simp only [PiLp.inner_apply]
    exact Finset.sum_congr rfl fun t _ => by simp [mul_comm]
  have h2 : ∑ j, (if Kept d rc j then (∑ t, d.v j t * b t) ^ 2 else 0) = ∑ i ∈ keptIdx d rc, (∑ t, B i t * b t) ^ 2 := by
    rw [keptIdx, Finset.sum_map, Finset.sum_filter]
    refine Finset.sum_congr rfl fun j _ => ?_
    simp only [Fin.coe_castLEEmb, hB]
  have h3 := Finset.sum_add_sum_compl (keptIdx d rc) fun i => (∑ t, B i t * b t) ^ 2
  have h4 : ∀ i ∈ (keptIdx d rc)ᶜ, (∑ t, B i t * b t) ^ 2 = (∑ t, B i t * ε t) ^ 2 := by
    intro i hi
    congr 1
    simp only [hb, mul_add, Finset.sum_add_distrib, model_coord hd]
    have : ∑ t, B i t * ∑ j, (∑ i, q i * d.u i j) * d.s j * d.v j t = 0 := by
      calc _ = ∑ j, (∑ i, q i * d.u i j) * d.s j * ∑ t, B i t * d.v j t := by
            simp only [Finset.mul_sum]
            rw [Finset.sum_comm]
            exact Finset.sum_congr rfl fun _ _ => Finset.sum_congr rfl fun _ _ => by ring
        _ = 0 := by
            refine Finset.sum_eq_zero fun j _ => ?_
            by_cases hj : Kept d rc j
            · have hne : i ≠ Fin.castLE (min_le_right nc N) j := by
                rintro rfl
                rw [Finset.mem_compl, keptIdx] at hi
                exact hi (Finset.mem_map_of_mem _ (Finset.mem_filter.2 ⟨Finset.mem_univ _, hj⟩))
              have := (orthonormal_iff_ite.1 B.orthonormal) i (Fin.castLE (min_le_right nc N) j)
              rw [if_neg hne, PiLp.inner_apply] at this
              have e : ∑ t, B i t * d.v j t = 0 := by
                rw [← this]
                exact Finset.sum_congr rfl fun t _ => by simp [hB, mul_comm]
              rw [e, mul_zero]
            · rw [hz j hj]; ring
    rw [this, zero_add]
  rw [← Finset.sum_congr rfl h4, h1, h2]
  linarith

/-- their number -/
theorem card_compl (d : SVD ℝ nc N) (rc : ℝ) : ((keptIdx d rc)ᶜ.card : ℤ) =
    (N : ℤ) - (by classical exact (Finset.univ.filter fun j => Kept d rc j).card : ℕ) := by
  classical
  have h := Finset.card_compl (keptIdx d rc)
  have h2 : (keptIdx d rc).card ≤ Fintype.card (Fin N) := Finset.card_le_univ _
  rw [h, Nat.cast_sub h2, Fintype.card_fin, keptIdx, Finset.card_map]

/-- Bessel -/
theorem bessel (hd : IsSVD m d) (W : Fin N → ℝ) : ∑ j, (∑ t, d.v j t * W t) ^ 2 ≤ ∑ t, W t ^ 2 := by
  have := resid_eq (fun j t => d.v j t) hd.vv (fun j => ∑ t, d.v j t * W t) W
  simp only [sub_self] at this
  have h0 : 0 ≤ ∑ t, (∑ j, (∑ t, d.v j t * W t) * d.v j t - W t) ^ 2 := Finset.sum_nonneg fun _ _ => sq_nonneg _
  rw [this] at h0
  simpa using h0

end RegLin
end Npplus
