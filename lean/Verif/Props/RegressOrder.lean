import Verif.Props.RegressLaws

/-!
# C125: `regress` depends only on the data points, not on how they are arranged

A data point is a datum together with the values of all the models and of the error at it.  Reordering or reshaping the
data, reordering the models, writing out broadcast models or errors: none of this changes the fit.
-/

set_option linter.unusedSectionVars false
namespace Npplus
open Npplus.Spec

variable {K : Type} [Field K] [LinearOrder K] [IsStrictOrderedRing K]
variable {svd : ∀ nc N, Matrix (Fin nc) (Fin N) K → Except PyErr (SVD K nc N)} {data data' errs errs' : NdArr K}
  {mdl mdl' : List (NdArr K)} {rcond rcond' : K}

/-- Two calls of `regress` have the same data points: `sig` renumbers the data, `e` renumbers the models. -/
structure SamePoints (data : NdArr K) (mdl : List (NdArr K)) (errs : NdArr K) (data' : NdArr K) (mdl' : List (NdArr K))
    (errs' : NdArr K) (sig : Fin data.shape.prod ≃ Fin data'.shape.prod) (e : Fin mdl.length ≃ Fin mdl'.length) : Prop where
  datum : ∀ t, data'.get (at_ data' (sig t)) = data.get (at_ data t)
  models : ∀ i t, bget (mdl'.get (e i)) (at_ data' (sig t)) = bget (mdl.get i) (at_ data t)
  err : ∀ t, bget errs' [(sig t : ℕ)] = bget errs [(t : ℕ)]

variable {sig : Fin data.shape.prod ≃ Fin data'.shape.prod} {e : Fin mdl.length ≃ Fin mdl'.length}

theorem modelAt_same (h : SamePoints data mdl errs data' mdl' errs' sig e) (q : Fin mdl'.length → K) (t : Fin data.shape.prod) :
    modelAt mdl' q (at_ data' (sig t)) = modelAt mdl (fun i => q (e i)) (at_ data t) := by
  unfold modelAt
  rw [← Equiv.sum_comp e]
  exact Finset.sum_congr rfl fun i _ => by rw [h.models]

theorem chisq_same (h : SamePoints data mdl errs data' mdl' errs' sig e) (q : Fin mdl'.length → K) :
    chisq data' mdl' errs' q = chisq data mdl errs (fun i => q (e i)) := by
  unfold chisq
  rw [← Equiv.sum_comp sig]
  exact Finset.sum_congr rfl fun t _ => by rw [modelAt_same h, h.datum, h.err]

theorem normSq_same (e : Fin mdl.length ≃ Fin mdl'.length) (q : Fin mdl'.length → K) : normSq q = normSq fun i => q (e i) :=
  (Equiv.sum_comp e fun i => q i ^ 2).symm

/-- C125.  Two calls of `regress` with the same data points (arranged in any way) and the same models (in any order) return the
same coefficient for each model, the same fitted value at each point, and the same sum of squared deviations, provided
neither discards a nonzero singular value. -/
theorem C125_order (hsvd : ∀ nc N m d, svd nc N m = .ok d → IsSVD m d) (hs : SamePoints data mdl errs data' mdl' errs' sig e)
    {r : RegFit K mdl.length data.shape.prod} (h : regress svd data mdl errs rcond = .ok r)
    {d : SVD K mdl.length data.shape.prod} (hd : svd _ _ (designMatrix data mdl errs) = .ok d) (hkeep : r.s = d.s)
    {r' : RegFit K mdl'.length data'.shape.prod} (h' : regress svd data' mdl' errs' rcond' = .ok r')
    {d' : SVD K mdl'.length data'.shape.prod} (hd' : svd _ _ (designMatrix data' mdl' errs') = .ok d') (hkeep' : r'.s = d'.s) :
    (∀ i, r'.p (e i) = r.p i) ∧ chisq data' mdl' errs' r'.p = chisq data mdl errs r.p ∧
    ((∀ t : Fin data.shape.prod, bget errs [(t : ℕ)] ≠ 0) → ∀ t, r'.fit (sig t) = r.fit t) := by
  have back : ∀ q : Fin mdl.length → K, chisq data' mdl' errs' (fun i => q (e.symm i)) = chisq data mdl errs q := fun q => by
    rw [chisq_same hs]
    simp only [Equiv.symm_apply_apply]
  have m1 : ∀ q, chisq data mdl errs (fun i => r'.p (e i)) ≤ chisq data mdl errs q := fun q => by
    rw [← chisq_same hs, ← back q]
    exact C40_optimal hsvd h' hd' hkeep' _
  have m2 : ∀ q, chisq data' mdl' errs' (fun i => r.p (e.symm i)) ≤ chisq data' mdl' errs' q := fun q => by
    rw [back, chisq_same hs q]
    exact C40_optimal hsvd h hd hkeep _
  obtain ⟨a1, a2⟩ := C41_shortest hsvd h hd hkeep _ m1
  obtain ⟨b1, -⟩ := C41_shortest hsvd h' hd' hkeep' _ m2
  rw [normSq_same e, normSq_same e] at b1
  simp only [Equiv.symm_apply_apply] at b1
  have ep := a2 (le_antisymm b1 a1)
  refine ⟨congrFun ep, by rw [chisq_same hs, ep], fun herr t => ?_⟩
  have herr' : ∀ t : Fin data'.shape.prod, bget errs' [(t : ℕ)] ≠ 0 := fun t => by
    have := herr (sig.symm t)
    rw [← hs.err] at this
    simpa using this
  rw [C42_model h' hsvd herr' (sig t), C42_model h hsvd herr t, modelAt_same hs, ep]

/-- C125.  A single error for all data means the same as that error given for every datum. -/
theorem C125_errs_written_out (hsvd : ∀ nc N m d, svd nc N m = .ok d → IsSVD m d) (s : K)
    {r : RegFit K mdl.length data.shape.prod} (h : regress svd data mdl ⟨[], fun _ => s⟩ rcond = .ok r)
    {r' : RegFit K mdl.length data.shape.prod} (h' : regress svd data mdl ⟨[data.shape.prod], fun _ => s⟩ rcond = .ok r') :
    r'.p = r.p ∧ r'.s = r.s ∧ r'.fit = r.fit ∧ r'.chi2 = r.chi2 ∧ r'.ndof = r.ndof ∧ r'.pcov = r.pcov := by
  obtain ⟨d, hd, hc⟩ := regress_ok h
  obtain ⟨d', hd', hc'⟩ := regress_ok h'
  have e : designMatrix data mdl (⟨[data.shape.prod], fun _ => s⟩ : NdArr K) = designMatrix data mdl ⟨[], fun _ => s⟩ := rfl
  rw [e] at hd' hc'
  cases hd.symm.trans hd'
  have : (Except.ok r' : Except PyErr _) = .ok r := hc'.symm.trans hc
  cases this
  exact ⟨rfl, rfl, rfl, rfl, rfl, rfl⟩

/-! ### Non-vacuity -/

/-- the data of C40 in reverse order -/
def exDataRev : NdArr ℚ := ⟨[3], fun idx => exData.get [2 - idx.getD 0 0]⟩
/-- the first model, likewise -/
def exOneRev : NdArr ℚ := ⟨[3], fun idx => exOne.get [2 - idx.getD 0 0]⟩
/-- the second model, likewise -/
def exSlopeRev : NdArr ℚ := ⟨[3], fun idx => exSlope.get [2 - idx.getD 0 0]⟩

/-- Data reversed, models exchanged, the error written out for every datum: the same points. -/
example : SamePoints exData [exOne, exSlope] exErr exDataRev [exSlopeRev, exOneRev] ⟨[3], fun _ => 1 / 2⟩
    (Fin.revPerm : Fin 3 ≃ Fin 3) (Fin.revPerm : Fin 2 ≃ Fin 2) where
  datum := by intro t; change Fin 3 at t; fin_cases t <;> decide +kernel
  models := by
    intro i t
    change Fin 3 at t
    change Fin 2 at i
    fin_cases t <;> fin_cases i <;> decide +kernel
  err := fun t => rfl

/-- the singular values of a matrix with orthogonal rows of the same length `sqrt c` -/
theorem svd_orthogonal {nc N : ℕ} {m : Matrix (Fin nc) (Fin N) K} {d : SVD K nc N} (hd : IsSVD m d) {c : K}
    (hm : ∀ i i', ∑ t, m i t * m i' t = if i = i' then c else 0) (j : Fin (min nc N)) : d.s j ^ 2 = c := by
  have h1 : ∀ t, d.s j * d.v j t = ∑ i, d.u i j * m i t := fun t => by
    have : ∀ i, d.u i j * m i t = ∑ j', (d.u i j * d.u i j') * (d.s j' * d.v j' t) := fun i => by
      rw [hd.eq, Finset.mul_sum]
      exact Finset.sum_congr rfl fun j' _ => by ring
    rw [Finset.sum_congr rfl fun i _ => this i, Finset.sum_comm, Finset.sum_congr rfl fun j' _ => (Finset.sum_mul _ _ _).symm]
    simp [hd.uu]
  calc d.s j ^ 2 = ∑ t, (d.s j * d.v j t) * (d.s j * d.v j t) := by
        have := hd.vv j j
        rw [if_pos rfl] at this
        rw [Finset.sum_congr rfl fun t _ => (by ring : (d.s j * d.v j t) * (d.s j * d.v j t) = d.s j ^ 2 * (d.v j t * d.v j t)),
          ← Finset.mul_sum, this, mul_one]
    _ = ∑ i, ∑ i', d.u i j * d.u i' j * ∑ t, m i t * m i' t := by
        rw [Finset.sum_congr rfl fun t _ => by rw [h1, Finset.sum_mul_sum]]
        simp only [Finset.mul_sum]
        rw [Finset.sum_comm]
        refine Finset.sum_congr rfl fun i _ => ?_
        rw [Finset.sum_comm]
        exact Finset.sum_congr rfl fun i' _ => Finset.sum_congr rfl fun t _ => by ring
    _ = c * ∑ i, d.u i j * d.u i j := by
        rw [Finset.mul_sum]
        refine Finset.sum_congr rfl fun i _ => ?_
        simp only [hm, mul_ite, mul_zero, Finset.sum_ite_eq, Finset.mem_univ, if_true]
        ring
    _ = c := by rw [hd.uu, if_pos rfl, mul_one]

/-- C125.  When the models divided by the errors are orthogonal to each other and of the same length, nothing is discarded,
whatever `rcond`. -/
theorem C125_orthogonal_kept (hsvd : ∀ nc N m d, svd nc N m = .ok d → IsSVD m d)
    {r : RegFit K mdl.length data.shape.prod} (h : regress svd data mdl errs rcond = .ok r)
    {d : SVD K mdl.length data.shape.prod} (hd : svd _ _ (designMatrix data mdl errs) = .ok d) {c : K} (hc : 0 < c)
    (hm : ∀ i i', ∑ t, designMatrix data mdl errs i t * designMatrix data mdl errs i' t = if i = i' then c else 0) : r.s = d.s := by
  have hS := hsvd _ _ _ _ hd
  funext j
  rw [C40_discards hsvd h hd j, if_neg]
  rintro ⟨j', hj'⟩
  have h1 := svd_orthogonal hS hm j
  have h2 := svd_orthogonal hS hm j'
  have e : d.s j' = d.s j := by
    have := (sq_eq_sq₀ (hS.nonneg j') (hS.nonneg j)).1 (h2.trans h1.symm)
    exact this
  have hp : 0 < d.s j := lt_of_le_of_ne (hS.nonneg j) fun e0 => by rw [← e0] at h1; simp at h1; exact hc.ne h1
  rw [e] at hj'
  have : min (max rcond (1 / 10 ^ 13)) (1 / 2) ≤ (1 / 2 : K) := min_le_right _ _
  nlinarith

/-- All the hypotheses of C125_order (and of the laws of C123) hold for the example over ℝ: both calls succeed and neither
discards anything. -/
example (rcond : ℝ) : ∃ (data errs : NdArr ℝ) (mdl : List (NdArr ℝ)) (r : RegFit ℝ mdl.length data.shape.prod)
    (d : SVD ℝ mdl.length data.shape.prod), mdl.length = 2 ∧ data.shape = [3] ∧ regress (exactSVD ℝ) data mdl errs rcond = .ok r ∧
      exactSVD ℝ _ _ (designMatrix data mdl errs) = .ok d ∧ r.s = d.s := by
  let one : NdArr ℝ := ⟨[3], fun idx => [2, 2, 1].getD (idx.getD 0 0) 0⟩
  let slope : NdArr ℝ := ⟨[3], fun idx => [-2, 1, 2].getD (idx.getD 0 0) 0⟩
  let dat : NdArr ℝ := ⟨[3], fun idx => [1, 2, 6].getD (idx.getD 0 0) 0⟩
  let er : NdArr ℝ := ⟨[], fun _ => 1 / 2⟩
  obtain ⟨d, hd⟩ := exactSVD_real _ _ (designMatrix dat [one, slope] er)
  obtain ⟨r, hr⟩ := C40_succeeds (svd := exactSVD ℝ) (data := dat) (errs := er) (mdl := [one, slope]) (rcond := rcond)
    (by intro mi hmi; simp at hmi; rcases hmi with rfl | rfl <;> decide) (Or.inl rfl) (by simp) (by decide) ⟨d, hd⟩
  refine ⟨dat, er, [one, slope], r, d, rfl, rfl, hr, hd, ?_⟩
  refine C125_orthogonal_kept (fun nc N m d => exactSVD_ok nc N m d) hr hd (c := 36) (by norm_num) ?_
  intro i i'
  change Fin 2 at i
  change Fin 2 at i'
  have e : ∀ F : Fin dat.shape.prod → ℝ, ∑ t, F t = F (0 : Fin 3) + F (1 : Fin 3) + F (2 : Fin 3) := fun F => Fin.sum_univ_three (F : Fin 3 → ℝ)
  rw [e]
  fin_cases i <;> fin_cases i' <;>
    simp [designMatrix, at_, NdArr.unravel, bget, bcIdx, dat, one, slope, er] <;> norm_num

end Npplus
