import Verif.Props.Regress

/-!
# C123: laws of `regress`

The fit is linear in the data, exact data are recovered, adding models never makes the fit worse, and the unit in which
the errors are given does not matter.
-/

set_option linter.unusedSectionVars false
namespace Npplus
open Npplus.Spec

variable {K : Type} [Field K] [LinearOrder K] [IsStrictOrderedRing K]
variable {svd : ∀ nc N, Matrix (Fin nc) (Fin N) K → Except PyErr (SVD K nc N)} {errs : NdArr K} {mdl : List (NdArr K)}
  {rcond : K}

/-- C123.  `regress` is linear in the data: fitting `a*data1 + b*data2` with the same models and errors gives
`a*p1 + b*p2` and the same combination of the fitted data, and covariance, degrees of freedom and singular values do not
depend on the data at all. -/
theorem C123_linear {sh : List ℕ} {f1 f2 : List ℕ → K} (a b : K) {r1 r2 r3 : RegFit K mdl.length sh.prod}
    (hsvd : ∀ nc N m d, svd nc N m = .ok d → IsSVD m d)
    (h1 : regress svd (⟨sh, f1⟩ : NdArr K) mdl errs rcond = .ok r1) (h2 : regress svd (⟨sh, f2⟩ : NdArr K) mdl errs rcond = .ok r2)
    (h3 : regress svd (⟨sh, fun i => a * f1 i + b * f2 i⟩ : NdArr K) mdl errs rcond = .ok r3) :
    (∀ i, r3.p i = a * r1.p i + b * r2.p i) ∧ (∀ t, r3.fit t = a * r1.fit t + b * r2.fit t) ∧
    r3.pcov = r1.pcov ∧ r3.ndof = r1.ndof ∧ r3.s = r1.s := by
  obtain ⟨d, hd1, hc1⟩ := regress_ok h1
  obtain ⟨d2, hd2, hc2⟩ := regress_ok h2
  obtain ⟨d3, hd3, hc3⟩ := regress_ok h3
  have e2 : d2 = d := by
    have : Except.ok d2 = (Except.ok d : Except PyErr _) := hd2.symm.trans hd1
    exact Except.ok.inj this
  have e3 : d3 = d := by
    have : Except.ok d3 = (Except.ok d : Except PyErr _) := hd3.symm.trans hd1
    exact Except.ok.inj this
  subst e2 e3
  have hS := hsvd _ _ _ _ hd1
  obtain ⟨k1, s1, -, i1, -, p1, n1, c1, -, g1⟩ := core_ok (rcondClip_pos rcond) hS hc1
  obtain ⟨k2, s2, -, i2, -, p2, n2, c2, -, g2⟩ := core_ok (rcondClip_pos rcond) hS hc2
  obtain ⟨k3, s3, -, i3, -, p3, n3, c3, -, g3⟩ := core_ok (rcondClip_pos rcond) hS hc3
  have hk2 : k2 = k1 := funext fun j => Bool.eq_iff_iff.2 ((i2 j).trans (i1 j).symm)
  have hk3 : k3 = k1 := funext fun j => Bool.eq_iff_iff.2 ((i3 j).trans (i1 j).symm)
  subst hk2 hk3
  have hp : ∀ i, r3.p i = a * r1.p i + b * r2.p i := by
    intro i
    rw [p1, p2, p3, Finset.mul_sum, Finset.mul_sum, ← Finset.sum_add_distrib]
    refine Finset.sum_congr rfl fun j _ => ?_
    split_ifs
    · have : ∀ A B C s u : K, A = a * B + b * C → 1 / s * A * u = a * (1 / s * B * u) + b * (1 / s * C * u) := by
        intros; subst_vars; ring
      apply this
      rw [Finset.mul_sum, Finset.mul_sum, ← Finset.sum_add_distrib]
      refine Finset.sum_congr rfl fun t _ => ?_
      simp only [at_]
      ring
    · ring
  refine ⟨hp, fun t => ?_, ?_, n3.trans n1.symm, ?_⟩
  · rw [g1, g2, g3, ← mul_div_assoc, ← mul_div_assoc, ← add_div]
    congr 1
    rw [Finset.mul_sum, Finset.mul_sum, ← Finset.sum_add_distrib]
    refine Finset.sum_congr rfl fun i _ => ?_
    rw [hp]
    simp only [designMatrix, at_]
    ring
  · funext i i'; rw [c1, c3]
  · funext j; rw [s1, s3]

variable {data : NdArr K} {r : RegFit K mdl.length data.shape.prod}

/-- a sum of squares of quotients is zero only if every numerator is -/
theorem chisq_zero (herr : ∀ t : Fin data.shape.prod, bget errs [(t : ℕ)] ≠ 0) {q : Fin mdl.length → K}
    (h : chisq data mdl errs q ≤ 0) (t : Fin data.shape.prod) : modelAt mdl q (at_ data t) = data.get (at_ data t) := by
  unfold chisq at h
  have hnn : ∀ t ∈ (Finset.univ : Finset (Fin data.shape.prod)),
      0 ≤ ((modelAt mdl q (at_ data t) - data.get (at_ data t)) / bget errs [(t : ℕ)]) ^ 2 := fun t _ => sq_nonneg _
  have h0 := (Finset.sum_eq_zero_iff_of_nonneg hnn).1 (le_antisymm h (Finset.sum_nonneg hnn)) t (Finset.mem_univ t)
  have h1 := pow_eq_zero_iff (two_ne_zero) |>.1 h0
  rcases div_eq_zero_iff.1 h1 with h2 | h2
  · exact sub_eq_zero.1 h2
  · exact absurd h2 (herr t)

/-- C123.  Data that are exactly a combination of the models (with coefficients `q`) are reproduced exactly, with
`chi2 = 0`, provided no nonzero singular value is discarded. -/
theorem C123_exact (hsvd : ∀ nc N m d, svd nc N m = .ok d → IsSVD m d)
    (h : regress svd data mdl errs rcond = .ok r) {d : SVD K mdl.length data.shape.prod}
    (hd : svd _ _ (designMatrix data mdl errs) = .ok d) (hkeep : r.s = d.s)
    (herr : ∀ t : Fin data.shape.prod, bget errs [(t : ℕ)] ≠ 0) (q : Fin mdl.length → K)
    (hq : ∀ t : Fin data.shape.prod, data.get (at_ data t) = modelAt mdl q (at_ data t)) :
    (∀ t : Fin data.shape.prod, r.fit t = data.get (at_ data t)) ∧ r.chi2 = 0 := by
  have hz : chisq data mdl errs q = 0 := by
    unfold chisq
    refine Finset.sum_eq_zero fun t _ => ?_
    rw [hq t, sub_self, zero_div, sq, zero_mul]
  have hle := C40_optimal hsvd h hd hkeep q
  rw [hz] at hle
  refine ⟨fun t => ?_, ?_⟩
  · rw [C42_model h hsvd herr t, chisq_zero herr hle t]
  · rw [C42_chi2 h hsvd, le_antisymm hle (Finset.sum_nonneg fun t _ => sq_nonneg _), zero_div]

/-- C123.  When moreover every model direction is kept, the coefficients themselves are recovered. -/
theorem C123_recovers (hsvd : ∀ nc N m d, svd nc N m = .ok d → IsSVD m d)
    (h : regress svd data mdl errs rcond = .ok r) (hn : mdl.length ≤ data.shape.prod) (hk : ∀ j, r.s j ≠ 0)
    (herr : ∀ t : Fin data.shape.prod, bget errs [(t : ℕ)] ≠ 0) (q : Fin mdl.length → K)
    (hq : ∀ t : Fin data.shape.prod, data.get (at_ data t) = modelAt mdl q (at_ data t)) : r.p = q := by
  obtain ⟨d, hd, hc⟩ := regress_ok h
  obtain ⟨keep, hs, -⟩ := core_ok (rcondClip_pos rcond) (hsvd _ _ _ _ hd) hc
  have hkeep : r.s = d.s := by
    funext j
    rw [hs]
    by_cases hj : keep j = true
    · rw [if_pos hj]
    · exact absurd (by rw [hs, if_neg hj]) (hk j)
  have hfit := (C123_exact hsvd h hd hkeep herr q hq).1
  have hmod : ∀ t : Fin data.shape.prod, modelAt mdl r.p (at_ data t) - modelAt mdl q (at_ data t) = 0 := fun t => by
    rw [← C42_model h hsvd herr t, hfit t, hq t, sub_self]
  have hN : (normalMatrix data mdl errs).mulVec (fun i => r.p i - q i) = 0 := by
    funext i
    simp only [Matrix.mulVec, dotProduct, normalMatrix, Finset.sum_mul, Pi.zero_apply]
    rw [Finset.sum_comm]
    refine Finset.sum_eq_zero fun t _ => ?_
    have e : ∀ i' : Fin mdl.length, bget (mdl.get i) (at_ data t) * bget (mdl.get i') (at_ data t) / bget errs [(t : ℕ)] ^ 2 *
        (r.p i' - q i') = bget (mdl.get i) (at_ data t) / bget errs [(t : ℕ)] ^ 2 *
          (r.p i' * bget (mdl.get i') (at_ data t) - q i' * bget (mdl.get i') (at_ data t)) := fun i' => by ring
    rw [Finset.sum_congr rfl fun i' _ => e i', ← Finset.mul_sum, Finset.sum_sub_distrib]
    have := hmod t
    unfold modelAt at this
    rw [this, mul_zero]
  have hinv := (C42_pcov h hsvd hn hk).2
  have : (r.pcov * normalMatrix data mdl errs).mulVec (fun i => r.p i - q i) = 0 := by
    rw [← Matrix.mulVec_mulVec, hN, Matrix.mulVec_zero]
  rw [hinv, Matrix.one_mulVec] at this
  funext i
  exact sub_eq_zero.1 (congrFun this i)

/-- the coefficients `q`, and zero for the additional models -/
def extend {n : ℕ} (N : ℕ) (q : Fin n → K) : Fin N → K := fun i => if hi : (i : ℕ) < n then q ⟨i, hi⟩ else 0

theorem modelAt_extend (more : List (NdArr K)) (q : Fin mdl.length → K) (idx : List ℕ) :
    modelAt (mdl ++ more) (extend (mdl ++ more).length q) idx = modelAt mdl q idx := by
  unfold modelAt
  set F : ℕ → K := fun i => if hi : i < mdl.length then q ⟨i, hi⟩ * bget (mdl.get ⟨i, hi⟩) idx else 0 with hF
  have e1 : ∑ i : Fin (mdl ++ more).length, extend (mdl ++ more).length q i * bget ((mdl ++ more).get i) idx =
      ∑ i ∈ Finset.range (mdl ++ more).length, F i := by
    rw [← Fin.sum_univ_eq_sum_range]
    refine Finset.sum_congr rfl fun i _ => ?_
    simp only [hF, extend]
    split_ifs with hi
    · congr 2
      simp only [List.get_eq_getElem]
      rw [List.getElem_append_left hi]
    · rw [zero_mul]
  have e2 : ∑ i : Fin mdl.length, q i * bget (mdl.get i) idx = ∑ i ∈ Finset.range mdl.length, F i := by
    rw [← Fin.sum_univ_eq_sum_range]
    refine Finset.sum_congr rfl fun i _ => ?_
    simp only [hF]
    rw [dif_pos i.2]
  rw [e1, e2]
  symm
  refine Finset.sum_subset (Finset.range_subset_range.2 (by simp)) fun i _ hi => ?_
  simp only [Finset.mem_range, not_lt] at hi
  simp only [hF]
  rw [dif_neg (by omega)]

/-- C123.  Fitting with additional models never makes the sum of squared deviations larger, provided the larger fit
discards no nonzero singular value. -/
theorem C123_more_models (hsvd : ∀ nc N m d, svd nc N m = .ok d → IsSVD m d) {more : List (NdArr K)}
    {r2 : RegFit K (mdl ++ more).length data.shape.prod} {errs : NdArr K} {rcond2 : K}
    (h2 : regress svd data (mdl ++ more) errs rcond2 = .ok r2) {d : SVD K (mdl ++ more).length data.shape.prod}
    (hd : svd _ _ (designMatrix data (mdl ++ more) errs) = .ok d) (hkeep : r2.s = d.s)
    (_h : regress svd data mdl errs rcond = .ok r) :
    chisq data (mdl ++ more) errs r2.p ≤ chisq data mdl errs r.p := by
  refine (C40_optimal hsvd h2 hd hkeep (extend _ r.p)).trans (le_of_eq ?_)
  unfold chisq
  exact Finset.sum_congr rfl fun t _ => by rw [modelAt_extend]

/-- C123.  The unit of the errors does not matter: with all errors multiplied by `c ≠ 0` the same coefficients result
(provided neither fit discards a nonzero singular value), and the sum of squared deviations is divided by `c**2`. -/
theorem C123_errs (hsvd : ∀ nc N m d, svd nc N m = .ok d → IsSVD m d) {c : K} (hc : c ≠ 0)
    (h : regress svd data mdl errs rcond = .ok r) {d : SVD K mdl.length data.shape.prod}
    (hd : svd _ _ (designMatrix data mdl errs) = .ok d) (hkeep : r.s = d.s) {rcond2 : K}
    {r2 : RegFit K mdl.length data.shape.prod}
    (h2 : regress svd data mdl (errs.map fun e => c * e) rcond2 = .ok r2) {d2 : SVD K mdl.length data.shape.prod}
    (hd2 : svd _ _ (designMatrix data mdl (errs.map fun e => c * e)) = .ok d2) (hkeep2 : r2.s = d2.s) :
    r2.p = r.p ∧ chisq data mdl (errs.map fun e => c * e) r2.p = chisq data mdl errs r.p / c ^ 2 := by
  have hx : ∀ q, chisq data mdl (errs.map fun e => c * e) q = chisq data mdl errs q / c ^ 2 := by
    intro q
    unfold chisq
    rw [Finset.sum_div]
    refine Finset.sum_congr rfl fun t _ => ?_
    have : bget (errs.map fun e => c * e) [(t : ℕ)] = c * bget errs [(t : ℕ)] := rfl
    rw [this, mul_comm c, ← div_div, div_pow]
  have hc2 : 0 < c ^ 2 := by positivity
  have m1 : ∀ q', chisq data mdl errs r2.p ≤ chisq data mdl errs q' := fun q' => by
    have := C40_optimal hsvd h2 hd2 hkeep2 q'
    rw [hx, hx] at this
    exact (div_le_div_iff_of_pos_right hc2).1 this
  have m2 : ∀ q', chisq data mdl (errs.map fun e => c * e) r.p ≤ chisq data mdl (errs.map fun e => c * e) q' := fun q' => by
    rw [hx, hx]
    exact (div_le_div_iff_of_pos_right hc2).2 (C40_optimal hsvd h hd hkeep q')
  obtain ⟨a1, a2⟩ := C41_shortest hsvd h hd hkeep r2.p m1
  obtain ⟨b1, -⟩ := C41_shortest hsvd h2 hd2 hkeep2 r.p m2
  have e := a2 (le_antisymm b1 a1)
  exact ⟨e, by rw [hx, e]⟩

/-! ### Non-vacuity -/

/-- the same data, models and decomposition as for C40, with other data on the same shape: the sum of both -/
def exRegSum : Option (List ℚ × List ℚ) :=
  (regress exSvdFn ⟨[3], fun i => 3 * exData.get i + 2 * exOne.get i⟩ [exOne, exSlope] exErr (1 / 10 ^ 9)).toOption.map
    fun r => (List.ofFn r.p, List.ofFn r.fit)

/-- `3 * (4/3, 4/3) + 2 * (1, 0)`, and `exOne` itself is recovered exactly (`p = (1, 0)`, `chi2 = 0`). -/
example : exRegSum = some ([6, 4], [4, 16, 14]) := by decide +kernel
example : (regress exSvdFn exOne [exOne, exSlope] exErr (1 / 10 ^ 9)).toOption.map
    (fun r => (List.ofFn r.p, List.ofFn r.fit, r.chi2)) = some ([1, 0], [2, 2, 1], 0) := by decide +kernel

/-- Over the reals the assumptions can be met: an svd exists for all data, models and errors, and `regress` succeeds. -/
example (data errs : NdArr ℝ) (mdl more : List (NdArr ℝ)) (rcond : ℝ)
    (hm : ∀ mi ∈ mdl ++ more, canAssign mi.shape data.shape = true)
    (he : errs.shape = [] ∨ errs.shape = [1] ∨ errs.shape = [data.shape.prod]) (hn : mdl ≠ []) (hN : 0 < data.shape.prod) :
    (∃ r, regress (exactSVD ℝ) data mdl errs rcond = .ok r) ∧ ∃ r, regress (exactSVD ℝ) data (mdl ++ more) errs rcond = .ok r :=
  ⟨C40_succeeds (fun mi h => hm mi (List.mem_append_left _ h)) he hn hN (exactSVD_real _ _ _),
    C40_succeeds hm he (by simp [hn]) hN (exactSVD_real _ _ _)⟩

end Npplus
