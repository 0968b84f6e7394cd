import Verif.Spec.Lsq
import Verif.Lemmas.NdArr
import Verif.Lemmas.Svd
import Mathlib.Tactic
import Mathlib.LinearAlgebra.Matrix.NonsingularInverse

/-!
# C40–C42: regress
-/

set_option linter.unusedSectionVars false
namespace Npplus
open Npplus.Spec

variable {K : Type} [Field K] [LinearOrder K] [IsStrictOrderedRing K]

section core
variable {nc N : ℕ} {m : Matrix (Fin nc) (Fin N) K} {d : SVD K nc N}

theorem ortho_sum {n k : ℕ} (w : Fin k → Fin n → K) (h : ∀ j j', ∑ t, w j t * w j' t = if j = j' then 1 else 0)
    (c e : Fin k → K) : ∑ t, (∑ j, c j * w j t) * (∑ j, e j * w j t) = ∑ j, c j * e j := by
  calc ∑ t, (∑ j, c j * w j t) * (∑ j, e j * w j t)
      = ∑ t, ∑ j, ∑ j', c j * e j' * (w j t * w j' t) := by
        refine Finset.sum_congr rfl fun t _ => ?_
        rw [Finset.sum_mul_sum]
        refine Finset.sum_congr rfl fun j _ => Finset.sum_congr rfl fun j' _ => by ring
    _ = ∑ j, ∑ j', c j * e j' * ∑ t, w j t * w j' t := by
        rw [Finset.sum_comm]
        refine Finset.sum_congr rfl fun j _ => ?_
        rw [Finset.sum_comm]
        refine Finset.sum_congr rfl fun j' _ => ?_
        rw [Finset.mul_sum]
    _ = ∑ j, c j * e j := by
        refine Finset.sum_congr rfl fun j _ => ?_
        simp [h]

/-- Residual in terms of the coordinates in the row space. -/
theorem resid_eq (w : Fin nc → Fin N → K) (h : ∀ j j', ∑ t, w j t * w j' t = if j = j' then 1 else 0)
    (c : Fin nc → K) (b : Fin N → K) :
    ∑ t, (∑ j, c j * w j t - b t) ^ 2 =
      ∑ j, (c j - ∑ t, w j t * b t) ^ 2 + (∑ t, b t ^ 2 - ∑ j, (∑ t, w j t * b t) ^ 2) := by
  have h1 : ∑ t, (∑ j, c j * w j t) * b t = ∑ j, c j * ∑ t, w j t * b t := by
    calc ∑ t, (∑ j, c j * w j t) * b t = ∑ t, ∑ j, c j * (w j t * b t) := by
          refine Finset.sum_congr rfl fun t _ => ?_
          rw [Finset.sum_mul]; exact Finset.sum_congr rfl fun j _ => by ring
      _ = _ := by
          rw [Finset.sum_comm]
          exact Finset.sum_congr rfl fun j _ => by rw [Finset.mul_sum]
  calc ∑ t, (∑ j, c j * w j t - b t) ^ 2
      = ∑ t, (∑ j, c j * w j t) * (∑ j, c j * w j t) - 2 * ∑ t, (∑ j, c j * w j t) * b t + ∑ t, b t ^ 2 := by
        rw [Finset.mul_sum, ← Finset.sum_sub_distrib, ← Finset.sum_add_distrib]
        exact Finset.sum_congr rfl fun t _ => by ring
    _ = _ := by
        rw [ortho_sum w h, h1]
        have : ∑ j, (c j - ∑ t, w j t * b t) ^ 2 =
            ∑ j, c j * c j - 2 * ∑ j, c j * ∑ t, w j t * b t + ∑ j, (∑ t, w j t * b t) ^ 2 := by
          rw [Finset.mul_sum, ← Finset.sum_sub_distrib, ← Finset.sum_add_distrib]
          exact Finset.sum_congr rfl fun t _ => by ring
        rw [this]; ring

end core

/-- What a successful call of regress has computed. -/
theorem regress_ok {svd : ∀ nc N, Matrix (Fin nc) (Fin N) K → Except PyErr (SVD K nc N)} {data : NdArr K}
    {mdl : List (NdArr K)} {errs : NdArr K} {rcond : K} {r : RegFit K mdl.length data.shape.prod}
    (h : regress svd data mdl errs rcond = .ok r) :
    ∃ d, svd _ _ (designMatrix data mdl errs) = .ok d ∧
      regressCore d (rcondClip rcond) (designMatrix data mdl errs)
        (fun t => data.get (at_ data t) / bget errs [(t : ℕ)]) (fun t => 1 / bget errs [(t : ℕ)]) = .ok r := by
  unfold regress at h
  simp only [bind, Except.bind, pure, Except.pure, throw, throwThe, MonadExceptOf.throw] at h
  split at h
  · exact absurd h (by simp)
  rename_i hx
  split at h
  · exact absurd h (by simp)
  rename_i b hb
  split at h
  · exact absurd h (by simp)
  rename_i hy
  split at h
  · exact absurd h (by simp)
  rename_i d hd
  split at h
  · exact absurd h (by simp)
  rename_i hsh
  push Not at hsh
  obtain ⟨hc, hg⟩ := NdArr.zip_ok hb
  have hl : errs.shape.length ≤ 1 := by
    have := hc.len errs.shape (by simp [NdArr.map])
    rw [hsh] at this; simpa using this
  have hbc : ∀ i t : ℕ, bcIdx errs.shape [i, t] = bcIdx errs.shape [t] := by
    intro i t
    match errs.shape, hl with
    | [], _ => rfl
    | [x], _ => rfl
    | x :: y :: l, hl => simp at hl
  have hm : (fun (i : Fin mdl.length) (t : Fin data.shape.prod) =>
      (mdl.get i).get (bcIdx (mdl.get i).shape (NdArr.unravel data.shape t)) *
        (errs.map (fun e => 1 / e)).get (bcIdx (errs.map (fun e => 1 / e)).shape [(i : ℕ), (t : ℕ)])) =
      designMatrix data mdl errs := by
    funext i t
    simp only [NdArr.map, designMatrix, bget, at_]
    rw [hbc, mul_one_div]
  rw [hm] at hd h
  refine ⟨d, hd, ?_⟩
  have e1 : (fun t : Fin data.shape.prod => b.get [(t : ℕ)]) =
      fun t : Fin data.shape.prod => data.get (at_ data t) / bget errs [(t : ℕ)] := by
    funext t
    have hv : ValidIdx (NdArr.ravel data).shape [(t : ℕ)] := by
      refine ⟨rfl, ?_⟩
      intro k hk
      have : k = 0 := by simpa [NdArr.ravel] using hk
      subst this; simp [NdArr.ravel]
    have := hg [(t : ℕ)]
    rw [this, bget_self hv]
    simp only [NdArr.ravel, at_, NdArr.map, bget]
    rw [mul_one_div]; rfl
  rw [e1] at h
  exact h

/-- What the numerical part computes, for a true singular value decomposition. -/
theorem core_ok {nc N : ℕ} {m : Matrix (Fin nc) (Fin N) K} {d : SVD K nc N} {rc : K} (hrc : 0 < rc)
    (hd : IsSVD m d) {b r0 : Fin N → K} {r : RegFit K nc N} (h : regressCore d rc m b r0 = .ok r) :
    ∃ keep : Fin (min nc N) → Bool, (∀ j, r.s j = if keep j then d.s j else 0) ∧ (∀ j, keep j → 0 < d.s j) ∧
      (∀ j, keep j ↔ ∃ h0 : 0 < min nc N, rc * d.s ⟨0, h0⟩ < d.s j) ∧ r.u = d.u ∧
      (∀ i, r.p i = ∑ j, (if keep j then 1 / d.s j * ∑ t, d.v j t * b t else 0) * d.u i j) ∧
      r.ndof = (N : ℤ) - ((Finset.univ.filter fun j => keep j = true).card : ℤ) ∧
      (∀ i i', r.pcov i i' = ∑ j, (d.u i j * if keep j then 1 / d.s j else 0) * (d.u i' j * if keep j then 1 / d.s j else 0)) ∧
      r.chi2 = (∑ t, (∑ i, r.p i * m i t - b t) ^ 2) / max (r.ndof : K) 1 ∧
      ∀ t, r.fit t = (∑ i, r.p i * m i t) / r0 t := by
  unfold regressCore at h
  split at h
  · cases h
  · rename_i h0
    cases h
    refine ⟨fun j => decide (rc * d.s ⟨0, Nat.pos_of_ne_zero h0⟩ < d.s j), fun j => rfl, ?_, ?_, rfl, ?_, ?_, ?_, ?_, ?_⟩
    · intro j hj
      have hj := of_decide_eq_true hj
      have := hd.nonneg ⟨0, Nat.pos_of_ne_zero h0⟩
      nlinarith [mul_nonneg hrc.le this]
    · intro j
      simp only [decide_eq_true_eq]
      exact ⟨fun h => ⟨_, h⟩, fun ⟨_, h⟩ => h⟩
    · intro i
      simp only
      apply Finset.sum_congr rfl
      intro j _
      split_ifs <;> ring
    · simp only
      congr 2
      rw [List.countP_eq_length_filter, Finset.card_def, Finset.filter_val, Fin.univ_def, Multiset.filter_coe,
        Multiset.coe_card]
      simp
    · intro i i'; rfl
    · simp only [sq]
    · intro t; rfl

theorem rcondClip_pos (rcond : K) : 0 < rcondClip rcond := by
  unfold rcondClip
  refine lt_min (lt_max_of_lt_right ?_) ?_ <;> positivity

section opt
variable {nc N : ℕ} {m : Matrix (Fin nc) (Fin N) K} {d : SVD K nc N}

/-- The model in the coordinates of the row space. -/
theorem model_coord (hd : IsSVD m d) (q : Fin nc → K) (t : Fin N) :
    ∑ i, q i * m i t = ∑ j, ((∑ i, q i * d.u i j) * d.s j) * d.v j t := by
  simp only [hd.eq, Finset.mul_sum, Finset.sum_mul]
  rw [Finset.sum_comm]
  exact Finset.sum_congr rfl fun j _ => Finset.sum_congr rfl fun i _ => by ring

theorem resid_coord (hd : IsSVD m d) (q : Fin nc → K) (b : Fin N → K) :
    ∑ t, (∑ i, q i * m i t - b t) ^ 2 =
      ∑ j, ((∑ i, q i * d.u i j) * d.s j - ∑ t, d.v j t * b t) ^ 2 +
        (∑ t, b t ^ 2 - ∑ j, (∑ t, d.v j t * b t) ^ 2) := by
  simp only [model_coord hd]
  rw [← resid_eq (fun j t => d.v j t) hd.vv]

/-- coordinates of the solution -/
theorem p_coord (hd : IsSVD m d) (a : Fin (min nc N) → K) (p : Fin nc → K) (hp : ∀ i, p i = ∑ j, a j * d.u i j)
    (j : Fin (min nc N)) : ∑ i, p i * d.u i j = a j := by
  have := ortho_sum (fun j i => d.u i j) hd.uu a (fun j' => if j' = j then 1 else 0)
  simp only [ite_mul, one_mul, zero_mul, Finset.sum_ite_eq', Finset.mem_univ, if_true, mul_ite, mul_one, mul_zero] at this
  rw [← this]
  exact Finset.sum_congr rfl fun i _ => by rw [hp]

end opt

theorem chisq_eq (data : NdArr K) (mdl : List (NdArr K)) (errs : NdArr K) (q : Fin mdl.length → K) :
    chisq data mdl errs q = ∑ t : Fin data.shape.prod, (∑ i, q i * designMatrix data mdl errs i t -
      data.get (at_ data t) / bget errs [(t : ℕ)]) ^ 2 := by
  unfold chisq designMatrix modelAt
  refine Finset.sum_congr rfl fun t _ => ?_
  rw [sub_div, Finset.sum_div]
  simp only [mul_div_assoc]

section props
variable {svd : ∀ nc N, Matrix (Fin nc) (Fin N) K → Except PyErr (SVD K nc N)} {data errs : NdArr K}
    {mdl : List (NdArr K)} {rcond : K} {r : RegFit K mdl.length data.shape.prod}

/-- Exact comparison of the fit with any coefficients that do not use a discarded direction. -/
theorem regress_compare (hsvd : ∀ nc N m d, svd nc N m = .ok d → IsSVD m d)
    (h : regress svd data mdl errs rcond = .ok r) {d : SVD K mdl.length data.shape.prod}
    (hd : svd _ _ (designMatrix data mdl errs) = .ok d) (q : Fin mdl.length → K)
    (hq : ∀ j, r.s j ≠ d.s j → ∑ i, q i * d.u i j = 0) :
    chisq data mdl errs q = chisq data mdl errs r.p +
      ∑ j, (if r.s j = 0 then 0 else (d.s j * (∑ i, q i * d.u i j - ∑ i, r.p i * d.u i j)) ^ 2) := by
  obtain ⟨d', hd', hc⟩ := regress_ok h
  rw [hd] at hd'; cases hd'
  have hS := hsvd _ _ _ _ hd
  obtain ⟨keep, hs, hpos, -, -, hp, -⟩ := core_ok (rcondClip_pos rcond) hS hc
  rw [chisq_eq, chisq_eq, resid_coord hS, resid_coord hS]
  have e : ∀ A B C D : K, A = B + D → A + C = B + C + D := by intros; subst_vars; ring
  apply e
  rw [← Finset.sum_add_distrib]
  refine Finset.sum_congr rfl fun j _ => ?_
  rw [p_coord hS _ _ hp, hs]
  by_cases hk : keep j = true
  · have := (hpos j hk).ne'
    simp only [hk, if_true, if_neg this]
    field_simp
    ring
  · simp only [hk, Bool.false_eq_true, if_false, if_true]
    by_cases h0 : d.s j = 0
    · rw [h0]; ring
    · rw [hq j (by rw [hs]; simp only [hk, Bool.false_eq_true, if_false]; exact fun e => h0 e.symm)]
      ring

/-- C40.  Among all coefficient vectors that do not use a discarded direction (`u_j . q = 0` whenever singular value
`j` was set to zero), `regress` minimises the sum of squared deviations. -/
theorem C40_optimal_kept (hsvd : ∀ nc N m d, svd nc N m = .ok d → IsSVD m d)
    (h : regress svd data mdl errs rcond = .ok r) {d : SVD K mdl.length data.shape.prod}
    (hd : svd _ _ (designMatrix data mdl errs) = .ok d) (q : Fin mdl.length → K)
    (hq : ∀ j, r.s j ≠ d.s j → ∑ i, q i * d.u i j = 0) :
    chisq data mdl errs r.p ≤ chisq data mdl errs q := by
  rw [regress_compare hsvd h hd q hq]
  have : 0 ≤ ∑ j, (if r.s j = 0 then 0 else (d.s j * (∑ i, q i * d.u i j - ∑ i, r.p i * d.u i j)) ^ 2) := by
    refine Finset.sum_nonneg fun j _ => ?_
    split_ifs
    · exact le_refl _
    · positivity
  linarith

/-- C40.  When no nonzero singular value is discarded, `regress` minimises the sum of squared deviations over all
coefficient vectors. -/
theorem C40_optimal (hsvd : ∀ nc N m d, svd nc N m = .ok d → IsSVD m d)
    (h : regress svd data mdl errs rcond = .ok r) {d : SVD K mdl.length data.shape.prod}
    (hd : svd _ _ (designMatrix data mdl errs) = .ok d) (hkeep : r.s = d.s) (q : Fin mdl.length → K) :
    chisq data mdl errs r.p ≤ chisq data mdl errs q :=
  C40_optimal_kept hsvd h hd q fun j hj => absurd (congrFun hkeep j) hj

/-- Which singular values are discarded: exactly those at most `rcond` (clipped to [1e-13, 0.5]) times the largest. -/
theorem C40_discards (hsvd : ∀ nc N m d, svd nc N m = .ok d → IsSVD m d)
    (h : regress svd data mdl errs rcond = .ok r) {d : SVD K mdl.length data.shape.prod}
    (hd : svd _ _ (designMatrix data mdl errs) = .ok d) (j : Fin (min mdl.length data.shape.prod)) :
    r.s j = if ∃ j', d.s j ≤ min (max rcond (1 / 10 ^ 13)) (1 / 2) * d.s j' then 0 else d.s j := by
  obtain ⟨d', hd', hc⟩ := regress_ok h
  rw [hd] at hd'; cases hd'
  have hS := hsvd _ _ _ _ hd
  obtain ⟨keep, hs, hpos, hk, -⟩ := core_ok (rcondClip_pos rcond) hS hc
  have h0 : 0 < min mdl.length data.shape.prod := lt_of_le_of_lt (Nat.zero_le _) j.2
  rw [hs]
  by_cases hkj : keep j = true
  · rw [if_pos hkj, if_neg]
    rintro ⟨j', hj'⟩
    obtain ⟨_, hlt⟩ := (hk j).1 hkj
    have h1 := hS.anti ⟨0, h0⟩ j' (by rw [Fin.le_def]; simp)
    have := mul_le_mul_of_nonneg_left h1 (rcondClip_pos rcond).le
    exact absurd (hj'.trans this) (not_le.2 hlt)
  · rw [if_neg hkj, if_pos]
    refine ⟨⟨0, h0⟩, not_lt.1 fun hlt => hkj ((hk j).2 ⟨h0, hlt⟩)⟩

/-- C41.  `p` has no component along a discarded direction. -/
theorem C41_discarded (hsvd : ∀ nc N m d, svd nc N m = .ok d → IsSVD m d)
    (h : regress svd data mdl errs rcond = .ok r) {d : SVD K mdl.length data.shape.prod}
    (hd : svd _ _ (designMatrix data mdl errs) = .ok d) (j : Fin (min mdl.length data.shape.prod)) (hj : r.s j = 0) :
    ∑ i, r.p i * d.u i j = 0 := by
  obtain ⟨d', hd', hc⟩ := regress_ok h
  rw [hd] at hd'; cases hd'
  have hS := hsvd _ _ _ _ hd
  obtain ⟨keep, hs, hpos, -, -, hp, -⟩ := core_ok (rcondClip_pos rcond) hS hc
  rw [p_coord hS _ _ hp]
  rw [hs] at hj
  by_cases hk : keep j = true
  · rw [if_pos hk] at hj
    exact absurd hj (hpos j hk).ne'
  · rw [if_neg hk]

/-- C41, exact form: any other coefficients that fit as well (and do not use a discarded direction) are longer, by
exactly their distance from `p` (Pythagoras). -/
theorem C41_pythagoras (hsvd : ∀ nc N m d, svd nc N m = .ok d → IsSVD m d)
    (h : regress svd data mdl errs rcond = .ok r) {d : SVD K mdl.length data.shape.prod}
    (hd : svd _ _ (designMatrix data mdl errs) = .ok d) (q : Fin mdl.length → K)
    (hq : ∀ j, r.s j ≠ d.s j → ∑ i, q i * d.u i j = 0) (hle : chisq data mdl errs q ≤ chisq data mdl errs r.p) :
    normSq q = normSq r.p + normSq (fun i => q i - r.p i) := by
  have hcmp := regress_compare hsvd h hd q hq
  obtain ⟨d', hd', hc⟩ := regress_ok h
  rw [hd] at hd'; cases hd'
  have hS := hsvd _ _ _ _ hd
  obtain ⟨keep, hs, hpos, -, -, hp, -⟩ := core_ok (rcondClip_pos rcond) hS hc
  have hz : ∀ j, keep j = true → ∑ i, q i * d.u i j = ∑ i, r.p i * d.u i j := by
    have hnn : ∀ j ∈ Finset.univ, 0 ≤ (if r.s j = 0 then 0 else
        (d.s j * (∑ i, q i * d.u i j - ∑ i, r.p i * d.u i j)) ^ 2) := by
      intro j _
      split_ifs
      · exact le_refl _
      · positivity
    have h0 := (Finset.sum_eq_zero_iff_of_nonneg hnn).1 (le_antisymm (by linarith) (Finset.sum_nonneg hnn))
    intro j hk
    have h1 := h0 j (Finset.mem_univ j)
    have hp0 := hpos j hk
    rw [hs, if_pos hk, if_neg hp0.ne'] at h1
    have h2 := pow_eq_zero_iff (two_ne_zero) |>.1 h1
    rcases mul_eq_zero.1 h2 with h3 | h3
    · exact absurd h3 hp0.ne'
    · linarith
  have hdot : ∑ i, r.p i * (q i - r.p i) = 0 := by
    calc ∑ i, r.p i * (q i - r.p i) = ∑ i, ∑ j, (if keep j then 1 / d.s j * ∑ t, d.v j t *
            (data.get (at_ data t) / bget errs [(t : ℕ)]) else 0) * (d.u i j * (q i - r.p i)) := by
          refine Finset.sum_congr rfl fun i _ => ?_
          conv_lhs => rw [hp i]
          rw [Finset.sum_mul]
          refine Finset.sum_congr rfl fun j _ => ?_
          conv_rhs => rw [← mul_assoc]
          rw [← hp i]
      _ = ∑ j, (if keep j then 1 / d.s j * ∑ t, d.v j t *
            (data.get (at_ data t) / bget errs [(t : ℕ)]) else 0) * ∑ i, d.u i j * (q i - r.p i) := by
          rw [Finset.sum_comm]
          exact Finset.sum_congr rfl fun j _ => (Finset.mul_sum _ _ _).symm
      _ = 0 := by
          refine Finset.sum_eq_zero fun j _ => ?_
          by_cases hk : keep j = true
          · have : ∑ i, d.u i j * (q i - r.p i) = ∑ i, q i * d.u i j - ∑ i, r.p i * d.u i j := by
              rw [← Finset.sum_sub_distrib]
              exact Finset.sum_congr rfl fun i _ => by ring
            rw [this, hz j hk, sub_self, mul_zero]
          · rw [if_neg hk, zero_mul]
  unfold normSq
  have : ∑ i, q i ^ 2 = ∑ i, r.p i ^ 2 + ∑ i, (q i - r.p i) ^ 2 + 2 * ∑ i, r.p i * (q i - r.p i) := by
    rw [Finset.mul_sum, ← Finset.sum_add_distrib, ← Finset.sum_add_distrib]
    exact Finset.sum_congr rfl fun i _ => by ring
  rw [this, hdot]; ring

/-- C41.  When no nonzero singular value is discarded, `p` is the unique shortest minimiser. -/
theorem C41_shortest (hsvd : ∀ nc N m d, svd nc N m = .ok d → IsSVD m d)
    (h : regress svd data mdl errs rcond = .ok r) {d : SVD K mdl.length data.shape.prod}
    (hd : svd _ _ (designMatrix data mdl errs) = .ok d) (hkeep : r.s = d.s) (q : Fin mdl.length → K)
    (hmin : ∀ q', chisq data mdl errs q ≤ chisq data mdl errs q') :
    normSq r.p ≤ normSq q ∧ (normSq q = normSq r.p → q = r.p) := by
  have := C41_pythagoras hsvd h hd q (fun j hj => absurd (congrFun hkeep j) hj) (hmin _)
  have hnn : 0 ≤ normSq (fun i => q i - r.p i) := Finset.sum_nonneg fun i _ => sq_nonneg _
  refine ⟨by linarith, fun e => ?_⟩
  have h0 : normSq (fun i => q i - r.p i) = 0 := by linarith
  funext i
  have := (Finset.sum_eq_zero_iff_of_nonneg fun i _ => sq_nonneg (q i - r.p i)).1 h0 i (Finset.mem_univ i)
  have := pow_eq_zero_iff (two_ne_zero) |>.1 this
  linarith

/-- C42.  Calling the model gives the fitted data, in data units (flattened). -/
theorem C42_model (h : regress svd data mdl errs rcond = .ok r) (hsvd : ∀ nc N m d, svd nc N m = .ok d → IsSVD m d)
    (herr : ∀ t : Fin data.shape.prod, bget errs [(t : ℕ)] ≠ 0) (t : Fin data.shape.prod) :
    r.fit t = modelAt mdl r.p (at_ data t) := by
  obtain ⟨d, hd, hc⟩ := regress_ok h
  obtain ⟨keep, -, -, -, -, -, -, -, -, hf⟩ := core_ok (rcondClip_pos rcond) (hsvd _ _ _ _ hd) hc
  rw [hf]
  have := herr t
  unfold designMatrix modelAt
  rw [Finset.sum_div]
  refine Finset.sum_congr rfl fun i _ => ?_
  field_simp

/-- C42.  `chi2` is the residual sum of squares over `max(ndof, 1)`. -/
theorem C42_chi2 (h : regress svd data mdl errs rcond = .ok r) (hsvd : ∀ nc N m d, svd nc N m = .ok d → IsSVD m d) :
    r.chi2 = chisq data mdl errs r.p / max (r.ndof : K) 1 := by
  obtain ⟨d, hd, hc⟩ := regress_ok h
  obtain ⟨keep, -, -, -, -, -, -, -, hf, -⟩ := core_ok (rcondClip_pos rcond) (hsvd _ _ _ _ hd) hc
  rw [hf, chisq_eq]

/-- C42.  `ndof` is the number of data minus the number of kept singular values. -/
theorem C42_ndof (h : regress svd data mdl errs rcond = .ok r) (hsvd : ∀ nc N m d, svd nc N m = .ok d → IsSVD m d) :
    r.ndof = (data.shape.prod : ℤ) - ((Finset.univ.filter fun j => r.s j ≠ 0).card : ℤ) := by
  obtain ⟨d, hd, hc⟩ := regress_ok h
  obtain ⟨keep, hs, hpos, -, -, -, hn, -⟩ := core_ok (rcondClip_pos rcond) (hsvd _ _ _ _ hd) hc
  rw [hn]
  congr 3
  ext j
  simp only [Finset.mem_filter, Finset.mem_univ, true_and, hs]
  by_cases hk : keep j = true
  · simp [hk, (hpos j hk).ne']
  · simp [hk]

/-- The normal matrix `sum_t (m_i m_i' / errs**2)`. -/
def normalMatrix (data : NdArr K) (mdl : List (NdArr K)) (errs : NdArr K) : Matrix (Fin mdl.length) (Fin mdl.length) K :=
  fun i i' => ∑ t : Fin data.shape.prod, bget (mdl.get i) (at_ data t) * bget (mdl.get i') (at_ data t) /
    bget errs [(t : ℕ)] ^ 2

theorem normalMatrix_eq {d : SVD K mdl.length data.shape.prod} (hS : IsSVD (designMatrix data mdl errs) d) :
    normalMatrix data mdl errs = d.u * (Matrix.diagonal (fun j => d.s j ^ 2)) * d.u.transpose := by
  funext i i'
  have : normalMatrix data mdl errs i i' = ∑ t, designMatrix data mdl errs i t * designMatrix data mdl errs i' t := by
    unfold normalMatrix designMatrix
    exact Finset.sum_congr rfl fun t _ => by rw [div_mul_div_comm, sq]
  rw [this]
  simp only [hS.eq]
  rw [ortho_sum (fun j t => d.v j t) hS.vv (fun j => d.u i j * d.s j) (fun j => d.u i' j * d.s j)]
  rw [Matrix.mul_apply]
  simp only [Matrix.mul_diagonal, Matrix.transpose_apply]
  exact Finset.sum_congr rfl fun j _ => by ring

/-- C42.  When every model direction is kept (no singular value is zero or discarded, and there are at least as many
data as models), `pcov` is the inverse of the normal matrix. -/
theorem C42_pcov (h : regress svd data mdl errs rcond = .ok r) (hsvd : ∀ nc N m d, svd nc N m = .ok d → IsSVD m d)
    (hn : mdl.length ≤ data.shape.prod) (hk : ∀ j, r.s j ≠ 0) :
    normalMatrix data mdl errs * r.pcov = 1 ∧ r.pcov * normalMatrix data mdl errs = 1 := by
  obtain ⟨d, hd, hc⟩ := regress_ok h
  have hS := hsvd _ _ _ _ hd
  obtain ⟨keep, hs, hpos, -, -, -, -, hpc, -⟩ := core_ok (rcondClip_pos rcond) hS hc
  have hall : ∀ j, keep j = true := by
    intro j
    by_contra hne
    exact hk j (by rw [hs, if_neg hne])
  have hpcov : r.pcov = d.u * (Matrix.diagonal (fun j => (1 / d.s j) ^ 2)) * d.u.transpose := by
    funext i i'
    rw [hpc, Matrix.mul_apply]
    simp only [Matrix.mul_diagonal, Matrix.transpose_apply, hall, if_true]
    exact Finset.sum_congr rfl fun j _ => by ring
  have huu : d.u.transpose * d.u = 1 := by
    funext j j'
    rw [Matrix.mul_apply, Matrix.one_apply]
    exact hS.uu j j'
  have huu' : d.u * d.u.transpose = 1 := by
    refine (Matrix.mul_eq_one_comm_of_card_eq _ _ _ ?_).1 huu
    simp [hn]
  have e1 : normalMatrix data mdl errs * r.pcov = 1 := by
    rw [hpcov, normalMatrix_eq hS]
    have : d.u * Matrix.diagonal (fun j => d.s j ^ 2) * d.u.transpose *
        (d.u * Matrix.diagonal (fun j => (1 / d.s j) ^ 2) * d.u.transpose) =
        d.u * (Matrix.diagonal (fun j => d.s j ^ 2) * (d.u.transpose * d.u) *
          Matrix.diagonal (fun j => (1 / d.s j) ^ 2)) * d.u.transpose := by
      simp only [Matrix.mul_assoc]
    rw [this, huu, Matrix.mul_one, Matrix.diagonal_mul_diagonal]
    have : (Matrix.diagonal fun j => d.s j ^ 2 * (1 / d.s j) ^ 2) =
        (1 : Matrix (Fin (min mdl.length data.shape.prod)) (Fin (min mdl.length data.shape.prod)) K) := by
      rw [← Matrix.diagonal_one]
      congr 1
      funext j
      have := (hpos j (hall j)).ne'
      field_simp
    rw [this, Matrix.mul_one, huu']
  exact ⟨e1, mul_eq_one_comm.1 e1⟩

/-- C42.  In every case `pcov` is a generalised inverse of the normal matrix, symmetric with nonnegative diagonal. -/
theorem C42_pcov_general (h : regress svd data mdl errs rcond = .ok r) (hsvd : ∀ nc N m d, svd nc N m = .ok d → IsSVD m d) :
    r.pcov * normalMatrix data mdl errs * r.pcov = r.pcov ∧ (∀ i i', r.pcov i i' = r.pcov i' i) ∧ ∀ i, 0 ≤ r.pcov i i := by
  obtain ⟨d, hd, hc⟩ := regress_ok h
  have hS := hsvd _ _ _ _ hd
  obtain ⟨keep, hs, hpos, -, -, -, -, hpc, -⟩ := core_ok (rcondClip_pos rcond) hS hc
  have hpcov : r.pcov = d.u * (Matrix.diagonal (fun j => if keep j then (1 / d.s j) ^ 2 else 0)) * d.u.transpose := by
    funext i i'
    rw [hpc, Matrix.mul_apply]
    simp only [Matrix.mul_diagonal, Matrix.transpose_apply]
    refine Finset.sum_congr rfl fun j _ => ?_
    split_ifs <;> ring
  have huu : d.u.transpose * d.u = 1 := by
    funext j j'
    rw [Matrix.mul_apply, Matrix.one_apply]
    exact hS.uu j j'
  refine ⟨?_, ?_, ?_⟩
  · rw [hpcov, normalMatrix_eq hS]
    set D := Matrix.diagonal (fun j => if keep j then (1 / d.s j) ^ 2 else 0) with hD
    have : d.u * D * d.u.transpose * (d.u * Matrix.diagonal (fun j => d.s j ^ 2) * d.u.transpose) *
        (d.u * D * d.u.transpose) = d.u * (D * (d.u.transpose * d.u) * Matrix.diagonal (fun j => d.s j ^ 2) *
          (d.u.transpose * d.u) * D) * d.u.transpose := by
      simp only [Matrix.mul_assoc]
    rw [this, huu, Matrix.mul_one, Matrix.mul_one, hD, Matrix.diagonal_mul_diagonal, Matrix.diagonal_mul_diagonal]
    congr 3
    funext j
    by_cases hk : keep j = true
    · have := (hpos j hk).ne'
      simp only [hk, if_true]
      field_simp
    · simp [hk]
  · intro i i'
    rw [hpc, hpc]
    exact Finset.sum_congr rfl fun j _ => by ring
  · intro i
    rw [hpc]
    exact Finset.sum_nonneg fun j _ => mul_self_nonneg _

/-- C40.  `regress` succeeds when every model conforms with the data, `errs` is a scalar (shape `[]` or `[1]`) or has
one element per datum, there is at least one model and one datum, and the SVD converges. -/
theorem C40_succeeds (hm : ∀ mi ∈ mdl, canAssign mi.shape data.shape = true)
    (he : errs.shape = [] ∨ errs.shape = [1] ∨ errs.shape = [data.shape.prod]) (hn : mdl ≠ []) (hN : 0 < data.shape.prod)
    (hd : ∃ d, svd _ _ (designMatrix data mdl errs) = .ok d) : ∃ r, regress svd data mdl errs rcond = .ok r := by
  obtain ⟨d, hd⟩ := hd
  have hl : errs.shape.length ≤ 1 := by rcases he with h | h | h <;> simp [h]
  have hbc : ∀ i t : ℕ, bcIdx errs.shape [i, t] = bcIdx errs.shape [t] := by
    intro i t
    match errs.shape, hl with
    | [], _ => rfl
    | [x], _ => rfl
    | x :: y :: l, hl => simp at hl
  have hmm : (fun (i : Fin mdl.length) (t : Fin data.shape.prod) =>
      (mdl.get i).get (bcIdx (mdl.get i).shape (NdArr.unravel data.shape t)) *
        (errs.map (fun e => 1 / e)).get (bcIdx (errs.map (fun e => 1 / e)).shape [(i : ℕ), (t : ℕ)])) =
      designMatrix data mdl errs := by
    funext i t
    simp only [NdArr.map, designMatrix, bget, at_]
    rw [hbc, mul_one_div]
  have hz : ∃ b, (NdArr.ravel data).zip (· * ·) (errs.map fun e => 1 / e) = .ok b ∧ b.shape = [data.shape.prod] := by
    refine ⟨_, NdArr.zip_ok_of (sh := [data.shape.prod]) ?_, rfl⟩
    refine ⟨?_, ⟨_, List.mem_cons_self, rfl⟩, ?_, ?_⟩
    · intro s hs
      simp only [List.mem_cons, List.not_mem_nil, or_false, NdArr.ravel, NdArr.map] at hs
      rcases hs with rfl | rfl
      · simp
      · simpa using hl
    · intro s hs k
      simp only [List.mem_cons, List.not_mem_nil, or_false, NdArr.ravel, NdArr.map] at hs
      rcases hs with rfl | rfl
      · left; rfl
      · rcases he with h | h | h
        · right; rw [h]; rfl
        · right; rw [h]; cases k <;> rfl
        · left; rw [h]
    · intro k
      exact ⟨_, List.mem_cons_self, rfl⟩
  obtain ⟨b, hb, hbs⟩ := hz
  have hca : canAssign (errs.map fun e => 1 / e).shape [mdl.length, data.shape.prod] = true := by
    simp only [canAssign, NdArr.map, Bool.and_eq_true, decide_eq_true_eq, List.all_eq_true, List.mem_range]
    refine ⟨by simp; omega, fun k hk => ?_⟩
    rcases he with h | h | h
    · rw [h]; simp [rdim]
    · rw [h]; cases k <;> simp [rdim]
    · rw [h]; cases k <;> simp [rdim]
  have hall : (mdl.all fun mi => canAssign mi.shape data.shape) = true := by
    rw [List.all_eq_true]; exact hm
  have hmin : min mdl.length data.shape.prod ≠ 0 := by
    have := List.length_pos_iff.2 hn
    omega
  unfold regress
  simp only [bind, Except.bind, throw, throwThe, MonadExceptOf.throw, pure, Except.pure, hall, hb, hca, hmm, hd, hbs,
    not_true_eq_false, if_false, ne_eq]
  unfold regressCore
  rw [dif_neg hmin]
  exact ⟨_, rfl⟩

/-- C40, documented use that does not work: for two-dimensional data, `errs` of the same shape as the data (both
lengths at least 2) is rejected with a ValueError, although the docstring asks for errs "conformable with data". -/
theorem C40_errs_shape_refuted {a b : ℕ} (ha : 2 ≤ a) (hb : 2 ≤ b) (hd : data.shape = [a, b]) (he : errs.shape = [a, b])
    (hm : ∀ mi ∈ mdl, canAssign mi.shape data.shape = true) : regress svd data mdl errs rcond = .error .valueError := by
  have hall : (mdl.all fun mi => canAssign mi.shape data.shape) = true := by
    rw [List.all_eq_true]; exact hm
  have hz : (NdArr.ravel data).zip (· * ·) (errs.map fun e => 1 / e) = .error .valueError := by
    apply NdArr.zip_err
    rintro ⟨sh, hsh⟩
    have h1 := hsh.fits [a * b] (by simp [NdArr.ravel, hd]) 0
    have h2 := hsh.fits [a, b] (by simp [NdArr.map, he]) 0
    simp only [rdim, List.reverse_cons, List.reverse_nil, List.nil_append, List.cons_append, List.getD_cons_zero] at h1 h2
    have : b < a * b := by nlinarith
    rcases h1 with h1 | h1
    · rcases h2 with h2 | h2
      · omega
      · omega
    · nlinarith
  unfold regress
  simp only [bind, Except.bind, throw, throwThe, MonadExceptOf.throw, pure, Except.pure, hall, hz,
    not_true_eq_false, if_false]

end props

/-! ### Non-vacuity -/

/-- Over the reals the assumptions can be met for all data and models: an svd exists, and then `regress` succeeds. -/
example (data errs : NdArr ℝ) (mdl : List (NdArr ℝ)) (rcond : ℝ) (hm : ∀ mi ∈ mdl, canAssign mi.shape data.shape = true)
    (he : errs.shape = [] ∨ errs.shape = [1] ∨ errs.shape = [data.shape.prod]) (hn : mdl ≠ []) (hN : 0 < data.shape.prod) :
    (∀ nc N m d, exactSVD ℝ nc N m = .ok d → IsSVD m d) ∧ ∃ r, regress (exactSVD ℝ) data mdl errs rcond = .ok r :=
  ⟨fun nc N m d => exactSVD_ok nc N m d, C40_succeeds hm he hn hN (exactSVD_real _ _ _)⟩

/-- data 1, 2, 6 -/
def exData : NdArr ℚ := ⟨[3], fun idx => [1, 2, 6].getD (idx.getD 0 0) 0⟩
/-- first model -/
def exOne : NdArr ℚ := ⟨[3], fun idx => [2, 2, 1].getD (idx.getD 0 0) 0⟩
/-- second model, orthogonal to the first -/
def exSlope : NdArr ℚ := ⟨[3], fun idx => [-2, 1, 2].getD (idx.getD 0 0) 0⟩
/-- errs = 1/2 -/
def exErr : NdArr ℚ := ⟨[], fun _ => 1 / 2⟩
/-- the exact decomposition of that design matrix (both rows have norm 6 and are orthogonal) -/
def exSVD : SVD ℚ 2 3 := ⟨fun i j => if i.1 = j.1 then 1 else 0, fun _ => 6,
  fun j t => ([[2/3, 2/3, 1/3], [-2/3, 1/3, 2/3]].getD j.1 []).getD t.1 0⟩
/-- an svd that knows this one matrix -/
def exSvdFn : ∀ nc N, Matrix (Fin nc) (Fin N) ℚ → Except PyErr (SVD ℚ nc N) := fun nc N _ =>
  if h : nc = 2 ∧ N = 3 then .ok (by rw [h.1, h.2]; exact exSVD) else .error .linAlgError

/-- The decomposition is one, of the design matrix of these arguments. -/
example : IsSVD (designMatrix exData [exOne, exSlope] exErr) exSVD where
  eq := by
    intro i t
    change Fin 2 at i
    change Fin 3 at t
    fin_cases i <;> fin_cases t <;> decide +kernel
  uu := by decide +kernel
  vv := by decide +kernel
  nonneg := by decide +kernel
  anti := by decide +kernel

/-- the coefficients `regress` computes from it, as a list -/
def exRegP : Option (List ℚ) :=
  (regress exSvdFn exData [exOne, exSlope] exErr (1 / 10 ^ 9)).toOption.map fun r => List.ofFn r.p
/-- the other results -/
def exRest : Option (ℤ × ℚ × List ℚ × List ℚ) :=
  (regress exSvdFn exData [exOne, exSlope] exErr (1 / 10 ^ 9)).toOption.map fun r =>
    (r.ndof, r.chi2, List.ofFn r.s, List.ofFn r.fit)

example : exRegP = some [4 / 3, 4 / 3] := by decide +kernel
example : exRest = some (1, 36, [6, 6], [0, 4, 4]) := by decide +kernel

end Npplus
