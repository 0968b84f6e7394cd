import Verif.Lemmas.RegressLin
import Verif.Lemmas.ChiSq
import Verif.Lemmas.GaussRot
import Verif.Spec.Stat
import Verif.Lemmas.Svd
import Verif.Lemmas.RandBall

/-!
# Properties C81, C90, C91: the statistics reported by `regress`

The data are measurements with random errors; the models and `errs` are known.  C90: uncorrelated errors of any distribution:
`p` is unbiased, `pcov` is its covariance matrix, and no other linear unbiased estimate has a smaller variance.  C91: independent
normal errors: `p` has the normal distribution with covariance `pcov`, and is independent of `chi2`.  C81: `chi2prob` is the
probability that `chi2` exceeds the given value.
-/

set_option linter.unusedSectionVars false
namespace Npplus
open Npplus.Spec MeasureTheory ProbabilityTheory
open scoped ENNReal

section
variable {Ω : Type} [MeasurableSpace Ω] {P : Measure Ω} {sh : List ℕ} {y : List ℕ → Ω → ℝ} {truth : List ℕ → ℝ}
    {svd : ∀ nc N, Matrix (Fin nc) (Fin N) ℝ → Except PyErr (SVD ℝ nc N)} {errs : NdArr ℝ} {mdl : List (NdArr ℝ)} {rcond : ℝ}
    {r : Ω → RegFit ℝ mdl.length sh.prod} [IsProbabilityMeasure P]

/-- the design matrix does not depend on the outcome -/
noncomputable def dm (sh : List ℕ) (mdl : List (NdArr ℝ)) (errs : NdArr ℝ) : Matrix (Fin mdl.length) (Fin sh.prod) ℝ :=
  fun i t => bget (mdl.get i) (NdArr.unravel sh t) / bget errs [(t : ℕ)]

/-- one decomposition serves all outcomes -/
theorem stat_core (hsvd : ∀ nc N m d, svd nc N m = .ok d → IsSVD m d)
    (h : ∀ ω, regress svd (measured sh y ω) mdl errs rcond = .ok (r ω)) (ω₀ : Ω) :
    ∃ d, svd _ _ (dm sh mdl errs) = .ok d ∧ IsSVD (dm sh mdl errs) d ∧
      ∀ ω, regressCore d (rcondClip rcond) (dm sh mdl errs) (fun t => y (NdArr.unravel sh t) ω / bget errs [(t : ℕ)])
        (fun t => 1 / bget errs [(t : ℕ)]) = .ok (r ω) := by
  obtain ⟨d, hd, -⟩ := regress_ok (h ω₀)
  refine ⟨d, hd, hsvd _ _ _ _ hd, fun ω => ?_⟩
  obtain ⟨d', hd', hc⟩ := regress_ok (h ω)
  have : svd _ _ (dm sh mdl errs) = .ok d' := hd'
  rw [show svd _ _ (dm sh mdl errs) = .ok d from hd] at this
  cases this
  exact hc

/-- covariance of linear combinations of scaled uncorrelated data -/
theorem cov_lin (hy : Uncorrelated P sh y truth errs) (herr : ∀ t : Fin sh.prod, bget errs [(t : ℕ)] ≠ 0)
    (a b : Fin sh.prod → ℝ) :
    cov[fun ω => ∑ t, a t * (y (NdArr.unravel sh t) ω / bget errs [(t : ℕ)]),
      fun ω => ∑ t, b t * (y (NdArr.unravel sh t) ω / bget errs [(t : ℕ)]); P] = ∑ t, a t * b t := by
  have hL : ∀ (c : Fin sh.prod → ℝ) t, MemLp (fun ω => c t * (y (NdArr.unravel sh t) ω / bget errs [(t : ℕ)])) 2 P := by
    intro c t
    have := (hy.memLp t).const_mul (c t / bget errs [(t : ℕ)])
    have e : (fun ω => c t * (y (NdArr.unravel sh t) ω / bget errs [(t : ℕ)])) =
        fun ω => c t / bget errs [(t : ℕ)] * y (NdArr.unravel sh t) ω := by
      ext ω; ring
    rw [e]; exact this
  rw [covariance_fun_sum_fun_sum (hL a) (hL b)]
  have : ∀ t t', cov[fun ω => a t * (y (NdArr.unravel sh t) ω / bget errs [(t : ℕ)]),
      fun ω => b t' * (y (NdArr.unravel sh t') ω / bget errs [(t' : ℕ)]); P] = if t = t' then a t * b t else 0 := by
    intro t t'
    rw [covariance_const_mul_left, covariance_const_mul_right, covariance_fun_div_left, covariance_fun_div_right, hy.cov]
    split_ifs with e
    · subst e
      have := herr t
      field_simp
    · simp
  simp [this]

/-- expectation of linear combinations -/
theorem mean_lin (hy : Uncorrelated P sh y truth errs) (a : Fin sh.prod → ℝ) :
    ∫ ω, ∑ t, a t * (y (NdArr.unravel sh t) ω / bget errs [(t : ℕ)]) ∂P =
      ∑ t, a t * (truth (NdArr.unravel sh t) / bget errs [(t : ℕ)]) := by
  rw [integral_finsetSum]
  · refine Finset.sum_congr rfl fun t _ => ?_
    rw [integral_const_mul, integral_div, hy.mean]
  · intro t _
    exact (((hy.memLp t).integrable (by norm_num)).div_const _).const_mul _

theorem truth_dm (q : Fin mdl.length → ℝ) (t : Fin sh.prod) :
    modelAt mdl q (NdArr.unravel sh t) / bget errs [(t : ℕ)] = ∑ i, q i * dm sh mdl errs i t := by
  unfold modelAt dm
  rw [Finset.sum_div]
  simp only [mul_div_assoc]

/-- C90.  `pcov` is the covariance matrix of `p`, for every outcome and whichever singular values are discarded. -/
theorem C90_pcov (hsvd : ∀ nc N m d, svd nc N m = .ok d → IsSVD m d)
    (h : ∀ ω, regress svd (measured sh y ω) mdl errs rcond = .ok (r ω)) (hy : Uncorrelated P sh y truth errs)
    (herr : ∀ t : Fin sh.prod, bget errs [(t : ℕ)] ≠ 0) (ω₀ : Ω) (i i' : Fin mdl.length) :
    (r ω₀).pcov i i' = cov[fun ω => (r ω).p i, fun ω => (r ω).p i'; P] := by
  obtain ⟨d, -, hS, hc⟩ := stat_core hsvd h ω₀
  have hcore := fun ω => RegLin.core (rcondClip_pos rcond) hS (hc ω)
  rw [(hcore ω₀).2.1]
  simp only [fun ω => (hcore ω).1]
  exact (cov_lin hy herr _ _).symm

/-- C90.  `p` is unbiased when no direction is discarded: if the true values are the model with coefficients `q`, the
expectation of `p` is `q`. -/
theorem C90_unbiased (hsvd : ∀ nc N m d, svd nc N m = .ok d → IsSVD m d)
    (h : ∀ ω, regress svd (measured sh y ω) mdl errs rcond = .ok (r ω)) (q : Fin mdl.length → ℝ)
    (hy : Uncorrelated P sh y (modelAt mdl q) errs) (hn : mdl.length ≤ sh.prod) {ω₀ : Ω} (hk : ∀ j, (r ω₀).s j ≠ 0)
    (i : Fin mdl.length) : ∫ ω, (r ω).p i ∂P = q i := by
  obtain ⟨d, -, hS, hc⟩ := stat_core hsvd h ω₀
  have hcore := fun ω => RegLin.core (rcondClip_pos rcond) hS (hc ω)
  have hall : ∀ j, RegLin.Kept d (rcondClip rcond) j := by
    intro j
    by_contra hne
    exact hk j (by rw [(hcore ω₀).2.2.2.2, if_neg hne])
  simp only [fun ω => (hcore ω).1]
  rw [mean_lin hy]
  simp only [truth_dm]
  exact RegLin.wt_exact (rcondClip_pos rcond) hS hn hall q i

/-- C90.  Also with dependent models: as long as only zero singular values are discarded, the fitted model is unbiased. -/
theorem C90_fit_unbiased (hsvd : ∀ nc N m d, svd nc N m = .ok d → IsSVD m d)
    (h : ∀ ω, regress svd (measured sh y ω) mdl errs rcond = .ok (r ω)) (q : Fin mdl.length → ℝ)
    (hy : Uncorrelated P sh y (modelAt mdl q) errs) (herr : ∀ t : Fin sh.prod, bget errs [(t : ℕ)] ≠ 0)
    {d : SVD ℝ mdl.length sh.prod} {ω₀ : Ω} (hd : svd _ _ (designMatrix (measured sh y ω₀) mdl errs) = .ok d) (hz : ∀ j, (r ω₀).s j = d.s j)
    (t : Fin sh.prod) : ∫ ω, (r ω).fit t ∂P = modelAt mdl q (NdArr.unravel sh t) := by
  obtain ⟨d', hd', hS, hc⟩ := stat_core hsvd h ω₀
  rw [show svd _ _ (dm sh mdl errs) = .ok d from hd] at hd'; cases hd'
  have hcore := fun ω => RegLin.core (rcondClip_pos rcond) hS (hc ω)
  have hz' : ∀ j, ¬ RegLin.Kept d (rcondClip rcond) j → d.s j = 0 := by
    intro j hj
    rw [← hz, (hcore ω₀).2.2.2.2, if_neg hj]
  have hfit : ∀ ω, (r ω).fit t = modelAt mdl (r ω).p (NdArr.unravel sh t) := fun ω => C42_model (h ω) hsvd herr t
  simp only [hfit]
  have e : ∀ ω, modelAt mdl (r ω).p (NdArr.unravel sh t) =
      ∑ t', (∑ i, RegLin.wt d (rcondClip rcond) i t' * bget (mdl.get i) (NdArr.unravel sh t)) *
        (y (NdArr.unravel sh t') ω / bget errs [(t' : ℕ)]) := by
    intro ω
    unfold modelAt
    simp only [(hcore ω).1, Finset.sum_mul]
    rw [Finset.sum_comm]
    exact Finset.sum_congr rfl fun _ _ => Finset.sum_congr rfl fun _ _ => by ring
  simp only [e]
  rw [mean_lin hy]
  simp only [truth_dm]
  have h2 := RegLin.wt_fit (rcondClip_pos rcond) hS hz' q t
  rw [← truth_dm q t] at h2
  have h3 : modelAt mdl q (NdArr.unravel sh t) = bget errs [(t : ℕ)] * (modelAt mdl q (NdArr.unravel sh t) / bget errs [(t : ℕ)]) := by
    have := herr t
    field_simp
  rw [h3, ← h2, Finset.mul_sum]
  have e2 : ∀ i, dm sh mdl errs i t = bget (mdl.get i) (NdArr.unravel sh t) / bget errs [(t : ℕ)] := fun i => rfl
  simp only [Finset.sum_mul, e2]
  rw [Finset.sum_comm]
  refine Finset.sum_congr rfl fun i _ => ?_
  rw [Finset.mul_sum]
  refine Finset.sum_congr rfl fun t' _ => ?_
  have := herr t
  field_simp

/-- C90 (Gauss and Markov).  No linear unbiased estimate `Σ w_t data_t` of a combination `Σ c_i q_i` of the coefficients has a
smaller variance than that of the same combination of `p`. -/
theorem C90_best (hsvd : ∀ nc N m d, svd nc N m = .ok d → IsSVD m d)
    (h : ∀ ω, regress svd (measured sh y ω) mdl errs rcond = .ok (r ω)) (hy : Uncorrelated P sh y truth errs)
    (herr : ∀ t : Fin sh.prod, bget errs [(t : ℕ)] ≠ 0) (c : Fin mdl.length → ℝ) (w : Fin sh.prod → ℝ)
    (hw : ∀ q : Fin mdl.length → ℝ, ∑ t, w t * modelAt mdl q (NdArr.unravel sh t) = ∑ i, c i * q i) :
    Var[fun ω => ∑ i, c i * (r ω).p i; P] ≤ Var[fun ω => ∑ t, w t * y (NdArr.unravel sh t) ω; P] := by
  classical
  rcases isEmpty_or_nonempty Ω with hΩ | ⟨⟨ω₀⟩⟩
  · have : P = 0 := Measure.eq_zero_of_isEmpty P
    subst this
    simp
  obtain ⟨d, -, hS, hc⟩ := stat_core hsvd h ω₀
  have hcore := fun ω => RegLin.core (rcondClip_pos rcond) hS (hc ω)
  set W : Fin sh.prod → ℝ := fun t => w t * bget errs [(t : ℕ)] with hW
  set A : Fin sh.prod → ℝ := fun t => ∑ i, c i * RegLin.wt d (rcondClip rcond) i t with hA
  have e1 : ∀ ω, ∑ i, c i * (r ω).p i = ∑ t, A t * (y (NdArr.unravel sh t) ω / bget errs [(t : ℕ)]) := by
    intro ω
    simp only [(hcore ω).1, hA, Finset.mul_sum, Finset.sum_mul]
    rw [Finset.sum_comm]
    exact Finset.sum_congr rfl fun _ _ => Finset.sum_congr rfl fun _ _ => by ring
  have e2 : ∀ ω, ∑ t, w t * y (NdArr.unravel sh t) ω = ∑ t, W t * (y (NdArr.unravel sh t) ω / bget errs [(t : ℕ)]) := by
    intro ω
    refine Finset.sum_congr rfl fun t _ => ?_
    have := herr t
    simp only [hW]; field_simp
  have hm : ∀ (b : Fin sh.prod → ℝ), AEMeasurable (fun ω => ∑ t, b t * (y (NdArr.unravel sh t) ω / bget errs [(t : ℕ)])) P := by
    intro b
    refine Finset.aemeasurable_fun_sum _ fun t _ => ?_
    exact ((hy.memLp t).1.aemeasurable.div_const _).const_mul _
  simp only [e1, e2]
  rw [← covariance_self (hm A), ← covariance_self (hm W), cov_lin hy herr, cov_lin hy herr]
  -- the combination is determined by the weights
  have hcW : ∀ i, c i = ∑ t, W t * dm sh mdl errs i t := by
    intro i
    have := hw fun i' => if i' = i then 1 else 0
    simp only [modelAt, ite_mul, one_mul, zero_mul, mul_ite, mul_one, mul_zero, Finset.sum_ite_eq', Finset.mem_univ, if_true] at this
    rw [← this]
    refine Finset.sum_congr rfl fun t _ => ?_
    have := herr t
    simp only [hW, dm]; field_simp
  have hcu : ∀ j, ∑ i, c i * d.u i j = d.s j * ∑ t, d.v j t * W t := by
    intro j
    have h1 : ∀ i, c i = ∑ j, (d.s j * ∑ t, d.v j t * W t) * d.u i j := by
      intro i
      rw [hcW]
      simp only [hS.eq, Finset.mul_sum, Finset.sum_mul]
      rw [Finset.sum_comm]
      exact Finset.sum_congr rfl fun _ _ => Finset.sum_congr rfl fun _ _ => by ring
    exact p_coord hS _ c h1 j
  have hA' : ∀ t, A t = ∑ j, (if RegLin.Kept d (rcondClip rcond) j then ∑ t, d.v j t * W t else 0) * d.v j t := by
    intro t
    simp only [hA, RegLin.wt, Finset.mul_sum]
    rw [Finset.sum_comm]
    refine Finset.sum_congr rfl fun j _ => ?_
    split_ifs with hj
    · have hp := (RegLin.kept_pos (rcondClip_pos rcond) hS hj).ne'
      have : ∑ t, d.v j t * W t = (∑ i, c i * d.u i j) / d.s j := by rw [hcu]; field_simp
      rw [this, Finset.sum_div, Finset.sum_mul]
      exact Finset.sum_congr rfl fun _ _ => by ring
    · simp
  have hAA : ∑ t, A t * A t = ∑ j, if RegLin.Kept d (rcondClip rcond) j then (∑ t, d.v j t * W t) ^ 2 else 0 := by
    simp only [hA']
    rw [ortho_sum (fun j t => d.v j t) hS.vv]
    refine Finset.sum_congr rfl fun j _ => ?_
    split_ifs
    · ring
    · ring
  rw [hAA]
  calc _ ≤ ∑ j, (∑ t, d.v j t * W t) ^ 2 := by
        refine Finset.sum_le_sum fun j _ => ?_
        split_ifs
        · exact le_rfl
        · positivity
    _ ≤ ∑ t, W t ^ 2 := RegLin.bessel hS W
    _ = _ := Finset.sum_congr rfl fun t _ => by ring

/-- the scaled errors -/
noncomputable def scaledErr (sh : List ℕ) (y : List ℕ → Ω → ℝ) (truth : List ℕ → ℝ) (errs : NdArr ℝ) (t : Fin sh.prod) (ω : Ω) : ℝ :=
  (y (NdArr.unravel sh t) ω - truth (NdArr.unravel sh t)) / bget errs [(t : ℕ)]

theorem scaled_eq (q : Fin mdl.length → ℝ) (t : Fin sh.prod) (ω : Ω) :
    y (NdArr.unravel sh t) ω / bget errs [(t : ℕ)] =
      ∑ i, q i * dm sh mdl errs i t + scaledErr sh y (modelAt mdl q) errs t ω := by
  rw [← truth_dm, scaledErr]; ring

theorem normal_std (hy : NormalErrors P sh y truth errs) (herr : ∀ t : Fin sh.prod, bget errs [(t : ℕ)] ≠ 0) :
    (∀ t, Measurable (scaledErr sh y truth errs t)) ∧ iIndepFun (scaledErr sh y truth errs) P ∧
      ∀ t, P.map (scaledErr sh y truth errs t) = gaussianReal 0 1 := by
  refine ⟨fun t => ?_, ?_, fun t => ?_⟩
  · unfold scaledErr
    have := hy.meas t
    fun_prop
  · exact hy.indep.comp (fun t x => (x - truth (NdArr.unravel sh t)) / bget errs [(t : ℕ)]) (by fun_prop)
  · have hm := hy.meas t
    have e : scaledErr sh y truth errs t = (fun x => x / bget errs [(t : ℕ)]) ∘ (fun x => x - truth (NdArr.unravel sh t)) ∘
      y (NdArr.unravel sh t) := rfl
    rw [e, ← Measure.map_map (by fun_prop) (by fun_prop), ← Measure.map_map (by fun_prop) (by fun_prop), hy.law,
      gaussianReal_map_sub_const, gaussianReal_map_div_const]
    congr 1
    · simp
    · ext
      rw [NNReal.coe_div, Real.coe_toNNReal _ (sq_nonneg _)]
      simp only [NNReal.coe_mk, NNReal.coe_one]
      exact div_self (pow_ne_zero 2 (herr t))

/-- Independent normal errors are uncorrelated. -/
theorem C90_normal_uncorrelated (hy : NormalErrors P sh y truth errs) : Uncorrelated P sh y truth errs := by
  have hL : ∀ t : Fin sh.prod, MemLp (y (NdArr.unravel sh t)) 2 P := by
    intro t
    have : MemLp id 2 (P.map (y (NdArr.unravel sh t))) := by
      rw [hy.law]; exact memLp_id_gaussianReal 2
    exact (memLp_map_measure_iff (by fun_prop) (hy.meas t).aemeasurable).1 this
  refine ⟨hL, fun t => ?_, fun t t' => ?_⟩
  · have : ∫ x, x ∂(P.map (y (NdArr.unravel sh t))) = truth (NdArr.unravel sh t) := by
      rw [hy.law, integral_id_gaussianReal]
    rwa [integral_map (hy.meas t).aemeasurable (by fun_prop)] at this
  · split_ifs with e
    · subst e
      rw [covariance_self (hy.meas t).aemeasurable]
      have : Var[id; P.map (y (NdArr.unravel sh t))] = bget errs [(t : ℕ)] ^ 2 := by
        rw [hy.law, variance_id_gaussianReal, Real.coe_toNNReal _ (sq_nonneg _)]
      rwa [variance_map (by fun_prop) (hy.meas t).aemeasurable] at this
    · exact (hy.indep.indepFun e).covariance_eq_zero (hL t) (hL t')

/-- the covariance matrix is positive semidefinite -/
theorem pcov_posSemidef (hsvd : ∀ nc N m d, svd nc N m = .ok d → IsSVD m d)
    (h : ∀ ω, regress svd (measured sh y ω) mdl errs rcond = .ok (r ω)) (ω₀ : Ω) : (r ω₀).pcov.PosSemidef := by
  obtain ⟨d, -, hS, hc⟩ := stat_core hsvd h ω₀
  have hcore := RegLin.core (rcondClip_pos rcond) hS (hc ω₀)
  have : (r ω₀).pcov = (Matrix.of (RegLin.wt d (rcondClip rcond))) * (Matrix.of (RegLin.wt d (rcondClip rcond))).conjTranspose := by
    ext i i'
    rw [hcore.2.1, Matrix.mul_apply]
    rfl
  rw [this]
  exact Matrix.posSemidef_self_mul_conjTranspose _

/-- C91.  With independent normal errors around a model with coefficients `q`, and no direction discarded, `p` has the normal
distribution with mean `q` and covariance matrix `pcov`. -/
theorem C91_normal (hsvd : ∀ nc N m d, svd nc N m = .ok d → IsSVD m d)
    (h : ∀ ω, regress svd (measured sh y ω) mdl errs rcond = .ok (r ω)) (q : Fin mdl.length → ℝ)
    (hy : NormalErrors P sh y (modelAt mdl q) errs) (herr : ∀ t : Fin sh.prod, bget errs [(t : ℕ)] ≠ 0)
    (hn : mdl.length ≤ sh.prod) {ω₀ : Ω} (hk : ∀ j, (r ω₀).s j ≠ 0) :
    P.map (fun ω => WithLp.toLp 2 (r ω).p) = multivariateGaussian (WithLp.toLp 2 q) (r ω₀).pcov := by
  obtain ⟨d, -, hS, hc⟩ := stat_core hsvd h ω₀
  have hcore := fun ω => RegLin.core (rcondClip_pos rcond) hS (hc ω)
  have hall : ∀ j, RegLin.Kept d (rcondClip rcond) j := by
    intro j
    by_contra hne
    exact hk j (by rw [(hcore ω₀).2.2.2.2, if_neg hne])
  obtain ⟨hm, hi, hl⟩ := normal_std hy herr
  set ε := scaledErr sh y (modelAt mdl q) errs with hε
  set w := RegLin.wt d (rcondClip rcond) with hw
  have hp : ∀ ω i, (r ω).p i = q i + ∑ t, w i t * ε t ω := by
    intro ω i
    rw [(hcore ω).1]
    simp only [scaled_eq q, mul_add, Finset.sum_add_distrib]
    rw [RegLin.wt_exact (rcondClip_pos rcond) hS hn hall q i]
  have hpf : (fun ω => (r ω).p) = fun ω i => q i + ∑ t, w i t * ε t ω := by ext ω i; exact hp ω i
  have hmeas : Measurable fun ω => WithLp.toLp 2 (r ω).p := by
    rw [show (fun ω => WithLp.toLp 2 (r ω).p) = fun ω => WithLp.toLp 2 fun i => q i + ∑ t, w i t * ε t ω by
      ext ω i; exact hp ω i]
    fun_prop
  apply Measure.ext_of_charFun (E := EuclideanSpace ℝ (Fin mdl.length))
  ext x
  rw [charFun_multivariateGaussian (pcov_posSemidef hsvd h ω₀), charFun_apply, integral_map hmeas.aemeasurable (by fun_prop)]
  have e1 : ∀ ω, inner ℝ (WithLp.toLp 2 (r ω).p) x = ∑ i, x i * q i + ∑ t, (∑ i, x i * w i t) * ε t ω := by
    intro ω
    have : inner ℝ (WithLp.toLp 2 (r ω).p) x = ∑ i, x i * (r ω).p i := by simp [PiLp.inner_apply]
    rw [this]
    simp only [hp, mul_add, Finset.sum_add_distrib, Finset.mul_sum, Finset.sum_mul]
    congr 1
    rw [Finset.sum_comm]
    exact Finset.sum_congr rfl fun _ _ => Finset.sum_congr rfl fun _ _ => by ring
  have e2 : ∀ ω, Complex.exp ((inner ℝ (WithLp.toLp 2 (r ω).p) x : ℝ) * Complex.I) =
      Complex.exp ((∑ i, x i * q i : ℝ) * Complex.I) * Complex.exp ((∑ t, (∑ i, x i * w i t) * ε t ω : ℝ) * Complex.I) := by
    intro ω
    rw [e1, ← Complex.exp_add]
    push_cast
    ring_nf
  simp only [e2]
  rw [integral_const_mul, GaussRot.charFun_lin hm hi hl, ← Complex.exp_add]
  congr 1
  have e3 : inner ℝ x (WithLp.toLp 2 q) = ∑ i, x i * q i := by simp [PiLp.inner_apply, mul_comm]
  have e4 : x.ofLp ⬝ᵥ ((r ω₀).pcov.mulVec x.ofLp) = ∑ t, (∑ i, x i * w i t) ^ 2 := by
    have l : x.ofLp ⬝ᵥ ((r ω₀).pcov.mulVec x.ofLp) = ∑ i, ∑ i', ∑ t, x i * w i t * (x i' * w i' t) := by
      simp only [dotProduct, Matrix.mulVec, (hcore ω₀).2.1, Finset.mul_sum, Finset.sum_mul]
      exact Finset.sum_congr rfl fun _ _ => Finset.sum_congr rfl fun _ _ => Finset.sum_congr rfl fun _ _ => by ring
    have rr : ∑ t, (∑ i, x i * w i t) ^ 2 = ∑ t, ∑ i, ∑ i', x i * w i t * (x i' * w i' t) := by
      simp only [sq, Finset.sum_mul_sum]
    rw [l, rr]
    calc _ = ∑ i, ∑ t, ∑ i', x i * w i t * (x i' * w i' t) := Finset.sum_congr rfl fun _ _ => Finset.sum_comm
      _ = _ := Finset.sum_comm
  rw [e3, e4]
  push_cast
  ring

/-- residual in rotated coordinates -/
theorem stat_resid (hsvd : ∀ nc N m d, svd nc N m = .ok d → IsSVD m d)
    (h : ∀ ω, regress svd (measured sh y ω) mdl errs rcond = .ok (r ω)) (q : Fin mdl.length → ℝ)
    {d : SVD ℝ mdl.length sh.prod} {ω₀ : Ω} (hd : svd _ _ (designMatrix (measured sh y ω₀) mdl errs) = .ok d)
    (hz : ∀ j, (r ω₀).s j = d.s j) :
    ∃ (B : OrthonormalBasis (Fin sh.prod) ℝ (EuclideanSpace ℝ (Fin sh.prod))) (S : Finset (Fin sh.prod))
      (c : Fin mdl.length → ℝ) (C : Fin mdl.length → Fin sh.prod → ℝ),
      (∀ ω, (r ω).ndof = (Sᶜ.card : ℤ)) ∧
      (∀ ω, (r ω).chi2 * max ((r ω).ndof : ℝ) 1 = ∑ i ∈ Sᶜ, (∑ t, B i t * scaledErr sh y (modelAt mdl q) errs t ω) ^ 2) ∧
      ∀ ω k, (r ω).p k = c k + ∑ i ∈ S, C k i * ∑ t, B i t * scaledErr sh y (modelAt mdl q) errs t ω := by
  classical
  obtain ⟨d', hd', hS, hc⟩ := stat_core hsvd h ω₀
  rw [show svd _ _ (dm sh mdl errs) = .ok d from hd] at hd'; cases hd'
  have hcore := fun ω => RegLin.core (rcondClip_pos rcond) hS (hc ω)
  have hz' : ∀ j, ¬ RegLin.Kept d (rcondClip rcond) j → d.s j = 0 := by
    intro j hj
    rw [← hz, (hcore ω₀).2.2.2.2, if_neg hj]
  obtain ⟨B, hB⟩ := RegLin.exists_basis hS
  refine ⟨B, RegLin.keptIdx d (rcondClip rcond), fun k => ∑ t, RegLin.wt d (rcondClip rcond) k t * ∑ i, q i * dm sh mdl errs i t,
    fun k i => if hi : (i : ℕ) < min mdl.length sh.prod then d.u k ⟨i, hi⟩ * (1 / d.s ⟨i, hi⟩) else 0,
    fun ω => ?_, fun ω => ?_, fun ω k => ?_⟩
  · rw [(hcore ω).2.2.2.1, RegLin.card_compl]
  · rw [(hcore ω).2.2.1]
    exact RegLin.resid hS hz' hB q (fun t => scaled_eq q t ω)
  · rw [(hcore ω).1]
    simp only [scaled_eq q, mul_add, Finset.sum_add_distrib]
    congr 1
    rw [RegLin.keptIdx, Finset.sum_map, Finset.sum_filter]
    simp only [RegLin.wt, Finset.sum_mul]
    rw [Finset.sum_comm]
    refine Finset.sum_congr rfl fun j _ => ?_
    simp only [Fin.coe_castLEEmb, hB]
    have hC : (if hi : ((Fin.castLE (min_le_right mdl.length sh.prod) j : Fin sh.prod) : ℕ) < min mdl.length sh.prod then
        d.u k ⟨_, hi⟩ * (1 / d.s ⟨_, hi⟩) else 0) = d.u k j * (1 / d.s j) := dif_pos j.2
    by_cases hK : RegLin.Kept d (rcondClip rcond) j
    · simp only [if_pos hK]
      refine Eq.trans ?_ (congrArg (fun z : ℝ => z * ∑ t, d.v j t * scaledErr sh y (modelAt mdl q) errs t ω) hC.symm)
      rw [Finset.mul_sum]
      exact Finset.sum_congr rfl fun t _ => by ring
    · simp only [if_neg hK]
      exact Finset.sum_eq_zero fun t _ => by ring

/-- C91.  With independent normal errors around a model, `p` and `chi2` are independent. -/
theorem C91_indep (hsvd : ∀ nc N m d, svd nc N m = .ok d → IsSVD m d)
    (h : ∀ ω, regress svd (measured sh y ω) mdl errs rcond = .ok (r ω)) (q : Fin mdl.length → ℝ)
    (hy : NormalErrors P sh y (modelAt mdl q) errs) (herr : ∀ t : Fin sh.prod, bget errs [(t : ℕ)] ≠ 0)
    {d : SVD ℝ mdl.length sh.prod} {ω₀ : Ω} (hd : svd _ _ (designMatrix (measured sh y ω₀) mdl errs) = .ok d)
    (hz : ∀ j, (r ω₀).s j = d.s j) : IndepFun (fun ω => (r ω).p) (fun ω => (r ω).chi2) P := by
  obtain ⟨B, S, c, C, hn, hchi, hp⟩ := stat_resid hsvd h q hd hz
  obtain ⟨hm, hi, hl⟩ := normal_std hy herr
  obtain ⟨zi, zl⟩ := GaussRot.coords hm hi hl B
  have hzm : ∀ i, Measurable fun ω => ∑ t, B i t * scaledErr sh y (modelAt mdl q) errs t ω := by
    intro i; fun_prop
  have hI := zi.indepFun_finset S Sᶜ disjoint_compl_right hzm
  have := hI.comp (φ := fun (x : S → ℝ) (k : Fin mdl.length) => c k + ∑ i : S, C k i * x i)
    (ψ := fun (x : (Sᶜ : Finset _) → ℝ) => (∑ i, x i ^ 2) / max ((Sᶜ.card : ℤ) : ℝ) 1) (by fun_prop) (by fun_prop)
  convert this using 1
  · ext ω k
    simp only [Function.comp]
    rw [hp, ← Finset.sum_coe_sort S fun i => C k i * ∑ t, B i t * scaledErr sh y (modelAt mdl q) errs t ω]
  · ext ω
    simp only [Function.comp]
    have hmax : (0 : ℝ) < max ((Sᶜ.card : ℤ) : ℝ) 1 := lt_max_of_lt_right one_pos
    rw [Finset.sum_coe_sort Sᶜ fun i => (∑ t, B i t * scaledErr sh y (modelAt mdl q) errs t ω) ^ 2, ← hchi, hn,
      mul_div_cancel_right₀ _ hmax.ne']

/-- C90.  The expectation of `chi2` is 1, for uncorrelated errors around a model and more data than kept directions. -/
theorem C90_chi2_mean (hsvd : ∀ nc N m d, svd nc N m = .ok d → IsSVD m d)
    (h : ∀ ω, regress svd (measured sh y ω) mdl errs rcond = .ok (r ω)) (q : Fin mdl.length → ℝ)
    (hy : Uncorrelated P sh y (modelAt mdl q) errs) (herr : ∀ t : Fin sh.prod, bget errs [(t : ℕ)] ≠ 0)
    {d : SVD ℝ mdl.length sh.prod} {ω₀ : Ω} (hd : svd _ _ (designMatrix (measured sh y ω₀) mdl errs) = .ok d)
    (hz : ∀ j, (r ω₀).s j = d.s j) (hdof : 0 < (r ω₀).ndof) : ∫ ω, (r ω).chi2 ∂P = 1 := by
  obtain ⟨B, S, c, C, hn, hchi, hp⟩ := stat_resid hsvd h q hd hz
  have hpos : (0 : ℝ) < Sᶜ.card := by
    rw [hn] at hdof
    exact_mod_cast hdof
  have h1 : (1 : ℝ) ≤ Sᶜ.card := by exact_mod_cast hpos
  have e : ∀ ω, (r ω).chi2 = (∑ i ∈ Sᶜ, (∑ t, B i t * scaledErr sh y (modelAt mdl q) errs t ω) ^ 2) / Sᶜ.card := by
    intro ω
    have := hchi ω
    rw [hn, Int.cast_natCast, max_eq_left h1] at this
    rw [← this, mul_div_cancel_right₀ _ hpos.ne']
  have hL : ∀ t, MemLp (scaledErr sh y (modelAt mdl q) errs t) 2 P := by
    intro t
    have h1 := ((hy.memLp t).sub (memLp_const (modelAt mdl q (NdArr.unravel sh t)))).const_mul (bget errs [(t : ℕ)])⁻¹
    refine (memLp_congr_ae (ae_of_all _ fun ω => ?_)).1 h1
    simp only [scaledErr, Pi.sub_apply]; ring
  have hLs : ∀ i, MemLp (fun ω => ∑ t, B i t * scaledErr sh y (modelAt mdl q) errs t ω) 2 P := fun i =>
    memLp_finsetSum _ fun t _ => (hL t).const_mul _
  have hsq : ∀ i, ∫ ω, (∑ t, B i t * scaledErr sh y (modelAt mdl q) errs t ω) ^ 2 ∂P = 1 := by
    intro i
    have h0 : ∀ ω, ∑ t, B i t * scaledErr sh y (modelAt mdl q) errs t ω =
        ∑ t, B i t * (y (NdArr.unravel sh t) ω / bget errs [(t : ℕ)]) -
          ∑ t, B i t * (modelAt mdl q (NdArr.unravel sh t) / bget errs [(t : ℕ)]) := by
      intro ω
      rw [← Finset.sum_sub_distrib]
      exact Finset.sum_congr rfl fun t _ => by rw [scaledErr]; ring
    simp only [h0, ← mean_lin hy]
    have hv := cov_lin hy herr (B i) (B i)
    have hm : AEMeasurable (fun ω => ∑ t, B i t * (y (NdArr.unravel sh t) ω / bget errs [(t : ℕ)])) P := by
      refine Finset.aemeasurable_fun_sum _ fun t _ => ?_
      exact ((hy.memLp t).1.aemeasurable.div_const _).const_mul _
    rw [covariance_self hm, variance_eq_integral hm] at hv
    rw [hv]
    have := B.norm_eq_one i
    rw [← sq_eq_sq₀ (norm_nonneg _) zero_le_one, EuclideanSpace.real_norm_sq_eq] at this
    rw [one_pow] at this
    rw [← this]
    exact Finset.sum_congr rfl fun t _ => by ring
  simp only [e]
  rw [integral_div, integral_finsetSum _ fun i _ => (hLs i).integrable_sq]
  simp only [hsq, Finset.sum_const, nsmul_eq_mul, mul_one]
  exact div_self hpos.ne'

/-- C81.  `chi2prob` of the fit is the probability that measurements with independent normal errors of standard deviation `errs`
around a model give a fit with a larger `chi2`. -/
theorem C81_chi2prob (hsvd : ∀ nc N m d, svd nc N m = .ok d → IsSVD m d)
    (h : ∀ ω, regress svd (measured sh y ω) mdl errs rcond = .ok (r ω)) (q : Fin mdl.length → ℝ)
    (hy : NormalErrors P sh y (modelAt mdl q) errs) (herr : ∀ t : Fin sh.prod, bget errs [(t : ℕ)] ≠ 0)
    {d : SVD ℝ mdl.length sh.prod} {ω₀ : Ω} (hd : svd _ _ (designMatrix (measured sh y ω₀) mdl errs) = .ok d)
    (hz : ∀ j, (r ω₀).s j = d.s j) (hdof : 0 < (r ω₀).ndof) {gammaincc : ℝ → ℝ → ℝ}
    (hg : ∀ a x, 0 < a → 0 ≤ x → gammaincc a x = gammaQ a x) (c : NdArr ℝ) (idx : List ℕ) (hc : 0 ≤ c.get idx) :
    ((r ω₀).model.chi2prob gammaincc (some c)).get idx = P.real {ω | c.get idx < (r ω).chi2} := by
  obtain ⟨B, S, -, -, hn, hchi, -⟩ := stat_resid hsvd h q hd hz
  obtain ⟨hm, hi, hl⟩ := normal_std hy herr
  obtain ⟨zi, zl⟩ := GaussRot.coords hm hi hl B
  have hcard : 0 < Sᶜ.card := by
    rw [hn] at hdof
    exact_mod_cast hdof
  have hpos : (0 : ℝ) < Sᶜ.card := by exact_mod_cast hcard
  have h1 : (1 : ℝ) ≤ Sᶜ.card := by exact_mod_cast hcard
  have hzm : ∀ i, Measurable fun ω => ∑ t, B i t * scaledErr sh y (modelAt mdl q) errs t ω := by
    intro i; fun_prop
  have hlaw := ChiSq.law hzm zi zl Sᶜ hcard
  have hset : {ω | c.get idx < (r ω).chi2} =
      (fun ω => ∑ i ∈ Sᶜ, (∑ t, B i t * scaledErr sh y (modelAt mdl q) errs t ω) ^ 2) ⁻¹' Set.Ioi (Sᶜ.card * c.get idx) := by
    ext ω
    have := hchi ω
    rw [hn, Int.cast_natCast, max_eq_left h1] at this
    rw [Set.mem_preimage, Set.mem_Ioi, ← this, mul_comm]
    exact (mul_lt_mul_iff_left₀ hpos).symm
  have hms : Measurable fun ω => ∑ i ∈ Sᶜ, (∑ t, B i t * scaledErr sh y (modelAt mdl q) errs t ω) ^ 2 := by fun_prop
  rw [hset, ← map_measureReal_apply hms measurableSet_Ioi, hlaw, ChiSq.gamma_tail (by positivity) (by positivity)]
  have hd2 : ((r ω₀).model.ndof : ℝ) = Sᶜ.card := by
    change ((r ω₀).ndof : ℝ) = _
    rw [hn, Int.cast_natCast]
  change gammaincc (1 / 2 * ((r ω₀).model.ndof : ℝ)) (1 / 2 * ((r ω₀).model.ndof : ℝ) * c.get idx) = _
  rw [hd2, hg _ _ (by positivity) (by positivity), gammaQ]
  rw [show (1 / 2 : ℝ) * (Sᶜ.card : ℝ) = (Sᶜ.card : ℝ) / 2 by ring, show (Sᶜ.card : ℝ) / 2 * c.get idx = Sᶜ.card * c.get idx / 2 by ring]

/-- C81.  Without argument: the probability that repeating the measurements gives a larger `chi2` than this fit. -/
theorem C81_chi2prob_default (hsvd : ∀ nc N m d, svd nc N m = .ok d → IsSVD m d)
    (h : ∀ ω, regress svd (measured sh y ω) mdl errs rcond = .ok (r ω)) (q : Fin mdl.length → ℝ)
    (hy : NormalErrors P sh y (modelAt mdl q) errs) (herr : ∀ t : Fin sh.prod, bget errs [(t : ℕ)] ≠ 0)
    {d : SVD ℝ mdl.length sh.prod} {ω₀ : Ω} (hd : svd _ _ (designMatrix (measured sh y ω₀) mdl errs) = .ok d)
    (hz : ∀ j, (r ω₀).s j = d.s j) (hdof : 0 < (r ω₀).ndof) {gammaincc : ℝ → ℝ → ℝ}
    (hg : ∀ a x, 0 < a → 0 ≤ x → gammaincc a x = gammaQ a x) :
    ((r ω₀).model.chi2prob gammaincc none).get [] = P.real {ω | (r ω₀).chi2 < (r ω).chi2} := by
  have hc : 0 ≤ (r ω₀).chi2 := by
    rw [C42_chi2 (h ω₀) hsvd]
    exact div_nonneg (Finset.sum_nonneg fun _ _ => sq_nonneg _) (le_max_of_le_right zero_le_one)
  exact C81_chi2prob hsvd h q hy herr hd hz hdof hg ⟨[], fun _ => (r ω₀).chi2⟩ [] hc

end

/-! ### such measurements exist -/

/-- Measurements with independent normal errors, for any shape, true values and errors. -/
theorem normal_exists (sh : List ℕ) (truth : List ℕ → ℝ) (errs : NdArr ℝ) :
    ∃ y : List ℕ → (Fin sh.prod → ℝ) → ℝ, NormalErrors
      (Measure.pi fun t : Fin sh.prod => gaussianReal (truth (NdArr.unravel sh t)) (bget errs [(t : ℕ)] ^ 2).toNNReal)
      sh y truth errs := by
  classical
  refine ⟨fun idx ω => if h : ravelIdx sh idx < sh.prod then ω ⟨_, h⟩ else 0, ?_⟩
  have e : ∀ t : Fin sh.prod, (fun ω : Fin sh.prod → ℝ => if h : ravelIdx sh (NdArr.unravel sh t) < sh.prod then
      ω ⟨_, h⟩ else 0) = fun ω => ω t := by
    intro t
    ext ω
    have := Rand.ravel_unravel sh t t.2
    simp only [this, t.2, dif_pos]
  refine ⟨fun t => ?_, ?_, fun t => ?_⟩
  · rw [e]; exact measurable_pi_apply t
  · rw [show (fun t : Fin sh.prod => _) = fun (t : Fin sh.prod) (ω : Fin sh.prod → ℝ) => ω t from funext e]
    exact iIndepFun_pi (X := fun _ x => x) fun _ => aemeasurable_id
  · rw [e]
    exact (measurePreserving_eval (μ := fun t : Fin sh.prod => gaussianReal (truth (NdArr.unravel sh t))
      (bget errs [(t : ℕ)] ^ 2).toNNReal) t).map_eq

/-- Fitting a constant to four measurements of the constant 2 with independent normal errors of standard deviation 1/2: the
hypotheses of all the theorems above hold, with three degrees of freedom. -/
example : let sh := [4]
    let mdl : List (NdArr ℝ) := [⟨[4], fun _ => 1⟩]
    let errs : NdArr ℝ := ⟨[], fun _ => 1 / 2⟩
    ∃ (Ω : Type) (_ : MeasurableSpace Ω) (P : Measure Ω) (_ : IsProbabilityMeasure P) (y : List ℕ → Ω → ℝ)
      (r : Ω → RegFit ℝ mdl.length sh.prod) (ω₀ : Ω) (d : SVD ℝ mdl.length sh.prod),
      (∀ nc N m d, exactSVD ℝ nc N m = .ok d → IsSVD m d) ∧
      (∀ ω, regress (exactSVD ℝ) (measured sh y ω) mdl errs (1 / 10 ^ 9) = .ok (r ω)) ∧
      NormalErrors P sh y (modelAt mdl fun _ => 2) errs ∧ (∀ t : Fin sh.prod, bget errs [(t : ℕ)] ≠ 0) ∧
      mdl.length ≤ sh.prod ∧ (∀ j, (r ω₀).s j ≠ 0) ∧
      exactSVD ℝ _ _ (designMatrix (measured sh y ω₀) mdl errs) = .ok d ∧ (∀ j, (r ω₀).s j = d.s j) ∧ (r ω₀).ndof = 3 := by
  classical
  intro sh mdl errs
  obtain ⟨y, hy⟩ := normal_exists sh (modelAt mdl fun _ => 2) errs
  have hr : ∀ ω, ∃ r, regress (exactSVD ℝ) (measured sh y ω) mdl errs (1 / 10 ^ 9) = .ok r := fun ω =>
    C40_succeeds (by intro mi hmi; simp only [mdl, List.mem_singleton] at hmi; subst hmi; rfl) (Or.inl rfl) (by simp [mdl])
      (by change 0 < [4].prod; decide) (exactSVD_real _ _ _)
  obtain ⟨r, hr⟩ : ∃ r : (Fin sh.prod → ℝ) → RegFit ℝ mdl.length sh.prod, ∀ ω,
      regress (exactSVD ℝ) (measured sh y ω) mdl errs (1 / 10 ^ 9) = .ok (r ω) :=
    ⟨fun ω => (hr ω).choose, fun ω => (hr ω).choose_spec⟩
  obtain ⟨d, hd, hS, hc⟩ := stat_core (fun nc N m d => exactSVD_ok nc N m d) hr fun _ => 0
  have hcore := RegLin.core (rcondClip_pos _) hS (hc fun _ => 0)
  have hmin : min mdl.length sh.prod = 1 := by decide
  have hall : ∀ j, RegLin.Kept d (rcondClip (1 / 10 ^ 9)) j := by
    intro j
    refine ⟨by rw [hmin]; exact one_pos, ?_⟩
    have hj : j = ⟨0, by rw [hmin]; exact one_pos⟩ := by
      ext; have := j.2; simp only; omega
    rw [← hj]
    have hpos : 0 < d.s j := by
      refine lt_of_le_of_ne (hS.nonneg j) fun h0 => ?_
      have := hS.eq ⟨0, by decide⟩ ⟨0, by decide⟩
      have hz : ∀ j', d.s j' = 0 := by
        intro j'
        have : j' = j := by ext; have := j.2; have := j'.2; omega
        rw [this, ← h0]
      simp only [hz, mul_zero, zero_mul, Finset.sum_const_zero] at this
      have h2 : dm sh mdl errs ⟨0, by decide⟩ ⟨0, by decide⟩ = 1 / (1 / 2) := rfl
      rw [h2] at this
      norm_num at this
    have : rcondClip (1 / 10 ^ 9 : ℝ) ≤ 1 / 2 := min_le_right _ _
    nlinarith
  have hsv : ∀ j, (r fun _ => 0).s j = d.s j := fun j => by rw [hcore.2.2.2.2, if_pos (hall j)]
  refine ⟨_, _, _, inferInstance, y, r, fun _ => 0, d, fun nc N m d => exactSVD_ok nc N m d, hr, hy, fun t => ?_, by decide,
    fun j => ?_, hd, hsv, ?_⟩
  · change (1 / 2 : ℝ) ≠ 0
    norm_num
  · rw [hsv]
    exact (RegLin.kept_pos (rcondClip_pos _) hS (hall j)).ne'
  · rw [hcore.2.2.2.1, show ((Finset.univ.filter fun j => RegLin.Kept d (rcondClip (1 / 10 ^ 9)) j).card : ℕ) = 1 by
      rw [Finset.filter_true_of_mem fun j _ => hall j, Finset.card_univ, Fintype.card_fin, hmin]]
    rfl

end Npplus
