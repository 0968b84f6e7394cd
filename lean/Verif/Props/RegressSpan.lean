import Verif.Props.RegressOrder

/-!
# C128: the fitted data depend only on the space spanned by the models

Fitting with `1, x` or with `1+x, 1-x`, with redundant models or with models multiplied by constants, gives the same fitted
data and the same sum of squared deviations.
-/

set_option linter.unusedSectionVars false
namespace Npplus
open Npplus.Spec

variable {K : Type} [Field K] [LinearOrder K] [IsStrictOrderedRing K]
variable {svd : ∀ nc N, Matrix (Fin nc) (Fin N) K → Except PyErr (SVD K nc N)} {data errs : NdArr K}
  {mdl mdl' : List (NdArr K)} {rcond rcond' : K}

/-- Every one of the models `mdl` is a linear combination of the models `mdl'`, at every datum. -/
def SpannedBy (data : NdArr K) (mdl mdl' : List (NdArr K)) : Prop :=
  ∀ i : Fin mdl.length, ∃ a : Fin mdl'.length → K, ∀ t : Fin data.shape.prod, bget (mdl.get i) (at_ data t) = modelAt mdl' a (at_ data t)

/-- then so is every combination -/
theorem spanned_modelAt (h : SpannedBy data mdl mdl') (q : Fin mdl.length → K) :
    ∃ q' : Fin mdl'.length → K, ∀ t : Fin data.shape.prod, modelAt mdl' q' (at_ data t) = modelAt mdl q (at_ data t) := by
  choose a ha using h
  refine ⟨fun i' => ∑ i, q i * a i i', fun t => ?_⟩
  unfold modelAt at *
  simp only [Finset.sum_mul, ha, Finset.mul_sum]
  rw [Finset.sum_comm]
  exact Finset.sum_congr rfl fun i _ => Finset.sum_congr rfl fun i' _ => by ring

theorem chisq_of_modelAt {q : Fin mdl.length → K} {q' : Fin mdl'.length → K}
    (h : ∀ t : Fin data.shape.prod, modelAt mdl' q' (at_ data t) = modelAt mdl q (at_ data t)) :
    chisq data mdl' errs q' = chisq data mdl errs q := by
  unfold chisq
  exact Finset.sum_congr rfl fun t _ => by rw [h]

/-- all coefficients which minimise give the same fitted data -/
theorem minimisers_same (herr : ∀ t : Fin data.shape.prod, bget errs [(t : ℕ)] ≠ 0) {p q : Fin mdl.length → K}
    (hp : ∀ a, chisq data mdl errs p ≤ chisq data mdl errs a) (hq : ∀ a, chisq data mdl errs q ≤ chisq data mdl errs a)
    (t : Fin data.shape.prod) : modelAt mdl p (at_ data t) = modelAt mdl q (at_ data t) := by
  have hmid : ∀ idx, modelAt mdl (fun i => (p i + q i) / 2) idx = (modelAt mdl p idx + modelAt mdl q idx) / 2 := fun idx => by
    unfold modelAt
    rw [← Finset.sum_add_distrib, Finset.sum_div]
    exact Finset.sum_congr rfl fun i _ => by ring
  have key : chisq data mdl errs (fun i => (p i + q i) / 2) = (chisq data mdl errs p + chisq data mdl errs q) / 2 -
      (∑ t : Fin data.shape.prod, ((modelAt mdl p (at_ data t) - modelAt mdl q (at_ data t)) / bget errs [(t : ℕ)]) ^ 2) / 4 := by
    unfold chisq
    rw [← Finset.sum_add_distrib, Finset.sum_div, Finset.sum_div, ← Finset.sum_sub_distrib]
    refine Finset.sum_congr rfl fun t _ => ?_
    rw [hmid]
    ring
  have e : chisq data mdl errs p = chisq data mdl errs q := le_antisymm (hp q) (hq p)
  have hnn : ∀ t ∈ (Finset.univ : Finset (Fin data.shape.prod)),
      0 ≤ ((modelAt mdl p (at_ data t) - modelAt mdl q (at_ data t)) / bget errs [(t : ℕ)]) ^ 2 := fun t _ => sq_nonneg _
  have h0 : ∑ t : Fin data.shape.prod, ((modelAt mdl p (at_ data t) - modelAt mdl q (at_ data t)) / bget errs [(t : ℕ)]) ^ 2 = 0 := by
    refine le_antisymm ?_ (Finset.sum_nonneg hnn)
    have := hp fun i => (p i + q i) / 2
    rw [key, e] at this
    linarith
  have h1 := pow_eq_zero_iff (two_ne_zero) |>.1 ((Finset.sum_eq_zero_iff_of_nonneg hnn).1 h0 t (Finset.mem_univ t))
  rcases div_eq_zero_iff.1 h1 with h2 | h2
  · exact sub_eq_zero.1 h2
  · exact absurd h2 (herr t)

/-- C128.  With models that span more, the sum of squared deviations is not larger. -/
theorem C128_span_le (hsvd : ∀ nc N m d, svd nc N m = .ok d → IsSVD m d) (hs : SpannedBy data mdl mdl')
    {r' : RegFit K mdl'.length data.shape.prod} (h' : regress svd data mdl' errs rcond' = .ok r')
    {d' : SVD K mdl'.length data.shape.prod} (hd' : svd _ _ (designMatrix data mdl' errs) = .ok d') (hkeep' : r'.s = d'.s)
    {r : RegFit K mdl.length data.shape.prod} (_h : regress svd data mdl errs rcond = .ok r) :
    chisq data mdl' errs r'.p ≤ chisq data mdl errs r.p := by
  obtain ⟨q', hq'⟩ := spanned_modelAt hs r.p
  rw [← chisq_of_modelAt hq']
  exact C40_optimal hsvd h' hd' hkeep' q'

/-- C128.  With models that span the same space, the fitted data and the sum of squared deviations are the same (provided no
nonzero singular value is discarded in either fit), although the coefficients, and even their number, differ. -/
theorem C128_span (hsvd : ∀ nc N m d, svd nc N m = .ok d → IsSVD m d) (hs : SpannedBy data mdl mdl') (hs' : SpannedBy data mdl' mdl)
    (herr : ∀ t : Fin data.shape.prod, bget errs [(t : ℕ)] ≠ 0)
    {r : RegFit K mdl.length data.shape.prod} (h : regress svd data mdl errs rcond = .ok r)
    {d : SVD K mdl.length data.shape.prod} (hd : svd _ _ (designMatrix data mdl errs) = .ok d) (hkeep : r.s = d.s)
    {r' : RegFit K mdl'.length data.shape.prod} (h' : regress svd data mdl' errs rcond' = .ok r')
    {d' : SVD K mdl'.length data.shape.prod} (hd' : svd _ _ (designMatrix data mdl' errs) = .ok d') (hkeep' : r'.s = d'.s) :
    (∀ t, r'.fit t = r.fit t) ∧ chisq data mdl' errs r'.p = chisq data mdl errs r.p := by
  have e := le_antisymm (C128_span_le hsvd hs h' hd' hkeep' h) (C128_span_le hsvd hs' h hd hkeep h')
  obtain ⟨q, hq⟩ := spanned_modelAt hs' r'.p
  have hmin : ∀ a, chisq data mdl errs q ≤ chisq data mdl errs a := fun a => by
    rw [chisq_of_modelAt hq, e]
    exact C40_optimal hsvd h hd hkeep a
  refine ⟨fun t => ?_, e⟩
  rw [C42_model h' hsvd herr t, C42_model h hsvd herr t, ← hq t]
  exact minimisers_same herr hmin (fun a => C40_optimal hsvd h hd hkeep a) t

/-! ### Non-vacuity -/

/-- `exOne, exSlope` and their sum and difference span the same space. -/
example : SpannedBy exData [exOne, exSlope]
    [⟨[3], fun i => exOne.get i + exSlope.get i⟩, ⟨[3], fun i => exOne.get i - exSlope.get i⟩] := by
  intro i
  change Fin 2 at i
  refine ⟨fun j : Fin 2 => if i = 0 then 1 / 2 else if j = 0 then 1 / 2 else -1 / 2, fun t => ?_⟩
  change Fin 3 at t
  fin_cases i <;> fin_cases t <;> decide +kernel

example : SpannedBy exData [⟨[3], fun i => exOne.get i + exSlope.get i⟩, ⟨[3], fun i => exOne.get i - exSlope.get i⟩]
    [exOne, exSlope] := by
  intro i
  change Fin 2 at i
  refine ⟨fun j : Fin 2 => if i = 0 ∨ j = 0 then 1 else -1, fun t => ?_⟩
  change Fin 3 at t
  fin_cases i <;> fin_cases t <;> decide +kernel

end Npplus
