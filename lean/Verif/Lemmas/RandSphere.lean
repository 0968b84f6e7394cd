import Verif.Lemmas.RandPolar
import Mathlib.MeasureTheory.Measure.Lebesgue.Basic

/-!
# Uniform points on the circle and on the sphere
-/

set_option linter.unusedSectionVars false
namespace Npplus
open MeasureTheory ProbabilityTheory Npplus.Randomx Npplus.Spec
open scoped ENNReal Real

namespace Rand

theorem sum_sq_mulVec {d : ℕ} {R : Matrix (Fin d) (Fin d) ℝ} (hR : R.transpose * R = 1) (x : Fin d → ℝ) :
    ∑ i, (R.mulVec x) i ^ 2 = ∑ i, x i ^ 2 := by
  have h1 : ∀ y : Fin d → ℝ, ∑ i, y i ^ 2 = y ⬝ᵥ y := fun y => by simp [dotProduct, pow_two]
  rw [h1, h1, Matrix.dotProduct_mulVec, ← Matrix.mulVec_transpose, Matrix.mulVec_mulVec, hR, Matrix.one_mulVec]

theorem meas_mulVec {d : ℕ} (R : Matrix (Fin d) (Fin d) ℝ) : Measurable R.mulVec := by
  refine measurable_pi_lambda _ fun i => ?_
  simp only [Matrix.mulVec, dotProduct]
  fun_prop

theorem measurableSet_sphere (d : ℕ) : MeasurableSet (sphere d) := by
  have : Measurable fun x : Fin d → ℝ => ∑ i, x i ^ 2 := by fun_prop
  exact this (measurableSet_singleton 1)

/-! ### the circle -/

/-- the point of `oncircle` -/
noncomputable def circPt (u : Fin 1 → ℝ) : Fin 2 → ℝ := ![Real.cos (2 * π * u 0), Real.sin (2 * π * u 0)]

theorem meas_circPt : Measurable circPt := by
  unfold circPt
  refine measurable_pi_lambda _ fun j => ?_
  fin_cases j
  · simp only [Fin.zero_eta, Matrix.cons_val_zero]; fun_prop
  · simp only [Fin.mk_one, Matrix.cons_val_one]; fun_prop

theorem exists_angle {a c : ℝ} (h : a ^ 2 + c ^ 2 = 1) : ∃ α, a = Real.cos (2 * π * α) ∧ c = Real.sin (2 * π * α) := by
  have hn : ‖(⟨a, c⟩ : ℂ)‖ = 1 := by
    rw [Complex.norm_def, Complex.normSq_mk, ← pow_two, ← pow_two, h, Real.sqrt_one]
  have h0 : (⟨a, c⟩ : ℂ) ≠ 0 := fun e => by rw [e] at hn; simp at hn
  refine ⟨Complex.arg ⟨a, c⟩ / (2 * π), ?_, ?_⟩
  · rw [mul_div_cancel₀ _ (by positivity), Complex.cos_arg h0, hn, div_one]
  · rw [mul_div_cancel₀ _ (by positivity), Complex.sin_arg, hn, div_one]

theorem rot2 {R : Matrix (Fin 2) (Fin 2) ℝ} (hR : R.transpose * R = 1) (hd : R.det = 1) :
    ∃ α, R = !![Real.cos (2 * π * α), -Real.sin (2 * π * α); Real.sin (2 * π * α), Real.cos (2 * π * α)] := by
  have e00 := congrFun (congrFun hR 0) 0
  have e01 := congrFun (congrFun hR 0) 1
  have e11 := congrFun (congrFun hR 1) 1
  simp [Matrix.mul_apply, Fin.sum_univ_two] at e00 e01 e11
  rw [Matrix.det_fin_two] at hd
  obtain ⟨α, h1, h2⟩ := exists_angle (a := R 0 0) (c := R 1 0) (by linarith)
  refine ⟨α, ?_⟩
  rw [← h1, ← h2]
  have hb : R 0 1 = -R 1 0 := by
    linear_combination (-R 0 1) * e00 + R 0 0 * e01 - R 1 0 * hd
  have hdd : R 1 1 = R 0 0 := by
    linear_combination (-R 1 1) * e00 + R 1 0 * e01 + R 0 0 * hd
  ext i j
  fin_cases i <;> fin_cases j <;> simp [hb, hdd]

theorem law_circ : UniformOnSphere ((Um 1).map circPt) := by
  refine ⟨Measure.isProbabilityMeasure_map meas_circPt.aemeasurable, ?_, fun R hR hd => ?_⟩
  · rw [Measure.map_apply meas_circPt (measurableSet_sphere 2).compl]
    convert measure_empty (μ := Um 1)
    ext u
    simp [sphere, circPt, Fin.sum_univ_two]
  · obtain ⟨α, rfl⟩ := rot2 hR hd
    refine Measure.ext_of_lintegral _ fun g hg => ?_
    rw [lintegral_map hg (meas_mulVec _), lintegral_map (f := fun a => g (Matrix.mulVec _ a)) (hg.comp (meas_mulVec _)) meas_circPt,
      lintegral_map hg meas_circPt, Um, lint_one U (fun a => g (Matrix.mulVec _ (circPt a))) ((hg.comp (meas_mulVec _)).comp meas_circPt),
      lint_one U (fun a => g (circPt a)) (hg.comp meas_circPt)]
    rw [← lint_shift (fun t => g (circPt ![t])) _ α]
    · refine lintegral_congr fun t => ?_
      congr 1
      funext j
      fin_cases j <;> simp [circPt, Matrix.mulVec, dotProduct, Fin.sum_univ_two, mul_add, Real.cos_add, Real.sin_add] <;> ring
    · intro t
      simp [circPt, mul_add]

/-! ### the sphere -/

/-- a uniform point on the sphere, with the first axis as the pole -/
noncomputable def sphPt (u : Fin 2 → ℝ) : Fin 3 → ℝ :=
  ![2 * u 1 - 1, Real.sqrt (1 - (2 * u 1 - 1) ^ 2) * Real.cos (2 * π * u 0), Real.sqrt (1 - (2 * u 1 - 1) ^ 2) * Real.sin (2 * π * u 0)]

theorem meas_vec3 {α : Type} [MeasurableSpace α] {a b c : α → ℝ} (ha : Measurable a) (hb : Measurable b) (hc : Measurable c) :
    Measurable fun x => ![a x, b x, c x] := by
  refine measurable_pi_lambda _ fun j => ?_
  fin_cases j
  · exact ha
  · exact hb
  · exact hc

theorem meas_sphPt : Measurable sphPt := by
  unfold sphPt
  exact meas_vec3 (by fun_prop) (by fun_prop) (by fun_prop)

/-- the point on the sphere in the direction of `x` -/
noncomputable def nrm (x : Fin 3 → ℝ) : Fin 3 → ℝ := (Real.sqrt (∑ i, x i ^ 2))⁻¹ • x

theorem meas_nrm : Measurable nrm := by
  unfold nrm
  refine measurable_pi_lambda _ fun j => ?_
  simp only [Pi.smul_apply, smul_eq_mul]
  fun_prop

theorem lint_cos (h : ℝ → ℝ → ℝ≥0∞) :
    ∫⁻ ψ in Set.Ioo 0 π, ENNReal.ofReal (Real.sin ψ) * h (Real.cos ψ) (Real.sin ψ) =
      2 * ∫⁻ v, h (2 * v - 1) (Real.sqrt (1 - (2 * v - 1) ^ 2)) ∂U := by
  have hi : Real.cos '' Set.Ioo 0 π = Set.Ioo (-1) 1 := by
    ext z
    constructor
    · rintro ⟨ψ, ⟨h0, h1⟩, rfl⟩
      constructor
      · rw [← Real.cos_pi]; exact Real.cos_lt_cos_of_nonneg_of_le_pi h0.le le_rfl h1
      · rw [← Real.cos_zero]; exact Real.cos_lt_cos_of_nonneg_of_le_pi le_rfl h1.le h0
    · rintro ⟨h0, h1⟩
      refine ⟨Real.arccos z, ⟨Real.arccos_pos.2 h1, ?_⟩, Real.cos_arccos h0.le h1.le⟩
      refine lt_of_le_of_ne (Real.arccos_le_pi z) fun e => ?_
      rw [Real.arccos_eq_pi] at e
      linarith
  have h1 := lint_image (s := Set.Ioo 0 π) measurableSet_Ioo (φ := Real.cos) (φ' := fun ψ => -Real.sin ψ)
    (fun ψ _ => Real.hasDerivAt_cos ψ) (Real.injOn_cos.mono Set.Ioo_subset_Icc_self) (fun u => h u (Real.sqrt (1 - u ^ 2)))
  have h2 := lint_image (s := Set.Ioo (0 : ℝ) 1) measurableSet_Ioo (φ := fun v => 2 * v - 1) (φ' := fun _ => 2)
    (fun v _ => by simpa using ((hasDerivAt_id v).const_mul 2).sub_const 1) (fun x _ y _ e => by
      have : 2 * x - 1 = 2 * y - 1 := e
      linarith) (fun u => h u (Real.sqrt (1 - u ^ 2)))
  have hi2 : (fun v : ℝ => 2 * v - 1) '' Set.Ioo 0 1 = Set.Ioo (-1) 1 := by
    ext z
    constructor
    · rintro ⟨v, ⟨h0, h1⟩, rfl⟩; exact ⟨by dsimp only; linarith, by dsimp only; linarith⟩
    · rintro ⟨h0, h1⟩; exact ⟨(z + 1) / 2, ⟨by linarith, by linarith⟩, by dsimp only; ring⟩
  rw [hi] at h1
  rw [hi2, h1] at h2
  rw [lint_U', ← lintegral_const_mul' _ _ (by simp)]
  have e2 : ENNReal.ofReal |2| = 2 := by norm_num
  rw [e2] at h2
  rw [← h2]
  refine setLIntegral_congr_fun measurableSet_Ioo fun ψ hψ => ?_
  have hs := Real.sin_pos_of_pos_of_lt_pi hψ.1 hψ.2
  show _ = ENNReal.ofReal |-Real.sin ψ| * h (Real.cos ψ) (Real.sqrt (1 - Real.cos ψ ^ 2))
  rw [abs_neg, abs_of_pos hs, ← Real.sin_sq, Real.sqrt_sq hs.le]

theorem key_sphere : ∃ C : ℝ≥0∞, ∀ g : (Fin 3 → ℝ) → ℝ≥0∞, Measurable g →
    ∫⁻ x in ball 3, g (nrm x) = C * ∫⁻ x, g x ∂((Um 2).map sphPt) := by
  refine ⟨ENNReal.ofReal (2 * π) * ((∫⁻ s in Set.Ioo (0 : ℝ) 1, ENNReal.ofReal s * ENNReal.ofReal s) * 2), fun g hg => ?_⟩
  have hgn : Measurable fun x => g (nrm x) := hg.comp meas_nrm
  have hgi := hgn.indicator (measurableSet_ball 3)
  rw [← lintegral_indicator (measurableSet_ball 3), volume_pi, lint_three volume _ hgi]
  set F := (ball 3).indicator fun x => g (nrm x) with hF
  let G : ℝ → ℝ → ℝ≥0∞ := fun c q => ∫⁻ t, g ![c, q * Real.cos (2 * π * t), q * Real.sin (2 * π * t)] ∂U
  let K : ℝ → ℝ → ℝ≥0∞ := fun a r => ∫⁻ t, F ![a, r * Real.cos (2 * π * t), r * Real.sin (2 * π * t)] ∂U
  have hK : Measurable (Function.uncurry K) := by
    have : Measurable (Function.uncurry fun (p : ℝ × ℝ) (t : ℝ) => F ![p.1, p.2 * Real.cos (2 * π * t), p.2 * Real.sin (2 * π * t)]) :=
      hgi.comp (meas_vec3 (by fun_prop) (by fun_prop) (by fun_prop))
    exact this.lintegral_prod_right
  have e1 : ∀ a, ∫⁻ b, ∫⁻ c, F ![a, b, c] = ENNReal.ofReal (2 * π) * ∫⁻ r, (Set.Ioi 0).indicator (fun r => ENNReal.ofReal r * K a r) r := by
    intro a
    rw [lint_polar' (fun b c => F ![a, b, c]) (hgi.comp (meas_vec3 measurable_const measurable_fst measurable_snd)),
      lintegral_indicator measurableSet_Ioi]
  simp only [e1]
  have hf2 : Measurable (Function.uncurry fun (a r : ℝ) => (Set.Ioi 0).indicator (fun r => ENNReal.ofReal r * K a r) r) := by
    have h1 : Measurable fun p : ℝ × ℝ => ENNReal.ofReal p.2 * K p.1 p.2 := (ENNReal.measurable_ofReal.comp measurable_snd).mul hK
    have h2 := h1.indicator (measurable_snd (measurableSet_Ioi (a := (0 : ℝ))))
    have e : (Function.uncurry fun (a r : ℝ) => (Set.Ioi 0).indicator (fun r => ENNReal.ofReal r * K a r) r) =
        (Prod.snd ⁻¹' Set.Ioi (0 : ℝ)).indicator fun p : ℝ × ℝ => ENNReal.ofReal p.2 * K p.1 p.2 := by
      funext p
      by_cases hp : 0 < p.2 <;> simp [Function.uncurry, Set.indicator, hp]
    rw [e]; exact h2
  rw [lintegral_const_mul' _ _ ENNReal.ofReal_ne_top, mul_assoc]
  congr 1
  rw [lint_polar _ hf2]
  have hFp : ∀ s, 0 < s → ∀ c q t, c ^ 2 + q ^ 2 = 1 → F ![s * c, s * q * Real.cos (2 * π * t), s * q * Real.sin (2 * π * t)] =
      (Set.Iio 1).indicator (fun _ => g ![c, q * Real.cos (2 * π * t), q * Real.sin (2 * π * t)]) s := by
    intro s hs c q t hcq
    have hsum : ∑ i, ![s * c, s * q * Real.cos (2 * π * t), s * q * Real.sin (2 * π * t)] i ^ 2 = s ^ 2 := by
      have := Real.cos_sq_add_sin_sq (2 * π * t)
      simp only [Fin.sum_univ_three, Matrix.cons_val]
      linear_combination s ^ 2 * hcq + s ^ 2 * q ^ 2 * this
    have hn : nrm ![s * c, s * q * Real.cos (2 * π * t), s * q * Real.sin (2 * π * t)] =
        ![c, q * Real.cos (2 * π * t), q * Real.sin (2 * π * t)] := by
      unfold nrm
      rw [hsum, Real.sqrt_sq hs.le]
      funext j
      fin_cases j <;> simp <;> field_simp
    by_cases h1 : s < 1
    · rw [Set.indicator_of_mem (show s ∈ Set.Iio 1 from h1), hF, Set.indicator_of_mem, hn]
      show ∑ i, ![s * c, s * q * Real.cos (2 * π * t), s * q * Real.sin (2 * π * t)] i ^ 2 < 1
      rw [hsum]; nlinarith
    · rw [Set.indicator_of_notMem (show s ∉ Set.Iio 1 from h1), hF, Set.indicator_of_notMem]
      intro hb
      have hb' : ∑ i, ![s * c, s * q * Real.cos (2 * π * t), s * q * Real.sin (2 * π * t)] i ^ 2 < 1 := hb
      rw [hsum] at hb'
      nlinarith
  have hG : Measurable (Function.uncurry G) := by
    have : Measurable (Function.uncurry fun (p : ℝ × ℝ) (t : ℝ) => g ![p.1, p.2 * Real.cos (2 * π * t), p.2 * Real.sin (2 * π * t)]) :=
      hg.comp (meas_vec3 (by fun_prop) (by fun_prop) (by fun_prop))
    exact this.lintegral_prod_right
  have e3 : ∀ s ∈ Set.Ioi (0 : ℝ), ENNReal.ofReal s * ∫⁻ ψ in Set.Ioo (-π) π,
      (Set.Ioi 0).indicator (fun r => ENNReal.ofReal r * K (s * Real.cos ψ) r) (s * Real.sin ψ) =
      (Set.Iio 1).indicator (fun s => ENNReal.ofReal s * ENNReal.ofReal s) s *
        ∫⁻ ψ in Set.Ioo 0 π, ENNReal.ofReal (Real.sin ψ) * G (Real.cos ψ) (Real.sin ψ) := by
    intro s hs
    have hs' : 0 < s := hs
    have e4 : ∫⁻ ψ in Set.Ioo (-π) π, (Set.Ioi 0).indicator (fun r => ENNReal.ofReal r * K (s * Real.cos ψ) r) (s * Real.sin ψ) =
        ∫⁻ ψ in Set.Ioo 0 π, (Set.Iio 1).indicator (fun s => ENNReal.ofReal s) s * (ENNReal.ofReal (Real.sin ψ) * G (Real.cos ψ) (Real.sin ψ)) := by
      rw [← lintegral_indicator measurableSet_Ioo, ← lintegral_indicator measurableSet_Ioo]
      refine lintegral_congr fun ψ => ?_
      by_cases h1 : ψ ∈ Set.Ioo (-π) π
      · rw [Set.indicator_of_mem h1]
        by_cases h2 : 0 < ψ
        · have hsin := Real.sin_pos_of_pos_of_lt_pi h2 h1.2
          rw [Set.indicator_of_mem (show ψ ∈ Set.Ioo 0 π from ⟨h2, h1.2⟩), Set.indicator_of_mem (show s * Real.sin ψ ∈ Set.Ioi 0 from mul_pos hs' hsin)]
          have hKG : K (s * Real.cos ψ) (s * Real.sin ψ) = (Set.Iio 1).indicator (fun _ => G (Real.cos ψ) (Real.sin ψ)) s := by
            simp only [K]
            simp only [hFp s hs' _ _ _ (Real.cos_sq_add_sin_sq ψ)]
            by_cases h3 : s ∈ Set.Iio 1
            · simp only [Set.indicator_of_mem h3]; rfl
            · simp only [Set.indicator_of_notMem h3, lintegral_zero]
          rw [hKG, ENNReal.ofReal_mul hs'.le]
          by_cases h3 : s ∈ Set.Iio 1
          · simp only [Set.indicator_of_mem h3, mul_assoc]
          · simp only [Set.indicator_of_notMem h3, mul_zero, zero_mul]
        · rw [Set.indicator_of_notMem (fun h : ψ ∈ Set.Ioo 0 π => h2 h.1), Set.indicator_of_notMem]
          have : Real.sin ψ ≤ 0 := Real.sin_nonpos_of_nonpos_of_neg_pi_le (by linarith) h1.1.le
          have : s * Real.sin ψ ≤ 0 := by nlinarith
          exact fun h => absurd h (not_lt.2 this)
      · rw [Set.indicator_of_notMem h1, Set.indicator_of_notMem]
        exact fun h => h1 ⟨by linarith [h.1, Real.pi_pos], h.2⟩
    rw [e4, lintegral_const_mul']
    · rw [← mul_assoc]
      congr 1
      by_cases h3 : s ∈ Set.Iio 1
      · simp only [Set.indicator_of_mem h3]
      · simp only [Set.indicator_of_notMem h3, mul_zero]
    · by_cases h3 : s ∈ Set.Iio 1
      · simp only [Set.indicator_of_mem h3]; exact ENNReal.ofReal_ne_top
      · simp only [Set.indicator_of_notMem h3]; simp
  rw [setLIntegral_congr_fun measurableSet_Ioi e3, lintegral_mul_const, lint_cos, mul_assoc]
  · congr 1
    · rw [← lintegral_indicator measurableSet_Ioi, ← lintegral_indicator measurableSet_Ioo]
      refine lintegral_congr fun s => ?_
      by_cases h0 : 0 < s <;> by_cases h1 : s < 1 <;> simp [Set.indicator, h0, h1]
    · congr 1
      rw [lintegral_map hg meas_sphPt, Um, lint_two U (fun u => g (sphPt u)) (hg.comp meas_sphPt), lintegral_lintegral_swap]
      · rfl
      · exact (hg.comp (meas_vec3 (α := ℝ × ℝ) (by fun_prop) (by fun_prop) (by fun_prop))).aemeasurable
  · refine Measurable.indicator ?_ measurableSet_Iio
    exact ENNReal.measurable_ofReal.mul ENNReal.measurable_ofReal

theorem lint_rot {R : Matrix (Fin 3) (Fin 3) ℝ} (hd : R.det = 1) (g : (Fin 3 → ℝ) → ℝ≥0∞) (hg : Measurable g) :
    ∫⁻ x, g (R.mulVec x) = ∫⁻ x, g x := by
  have h1 := Real.map_matrix_volume_pi_eq_smul_volume_pi (M := R) (by rw [hd]; norm_num)
  rw [hd] at h1
  have h2 : ∫⁻ x, g x ∂(Measure.map (Matrix.toLin' R) volume) = ∫⁻ x, g x := by
    rw [h1]; simp
  rw [← h2, lintegral_map hg]
  · rfl
  · exact meas_mulVec R

theorem law_sph : UniformOnSphere ((Um 2).map sphPt) := by
  have hp : IsProbabilityMeasure ((Um 2).map sphPt) := Measure.isProbabilityMeasure_map meas_sphPt.aemeasurable
  obtain ⟨C, hC⟩ := key_sphere
  have hCv : C = volume (ball 3) := by
    have := hC 1 measurable_one
    simp only [Pi.one_apply, lintegral_one, measure_univ, mul_one, Measure.restrict_apply_univ] at this
    exact this.symm
  refine ⟨hp, ?_, fun R hR hd => ?_⟩
  · rw [Measure.map_apply meas_sphPt (measurableSet_sphere 3).compl, Um_eq, Measure.restrict_apply (meas_sphPt (measurableSet_sphere 3).compl)]
    convert measure_empty (μ := (volume : Measure (Fin 2 → ℝ)))
    rw [Set.eq_empty_iff_forall_notMem]
    rintro u ⟨h1, h2⟩
    apply h1
    have h0 := (h2 1 trivial).1
    have h3 := (h2 1 trivial).2
    have hs := Real.sq_sqrt (show 0 ≤ 1 - (2 * u 1 - 1) ^ 2 by nlinarith)
    have hc := Real.cos_sq_add_sin_sq (2 * π * u 0)
    show ∑ i, sphPt u i ^ 2 = 1
    simp only [Fin.sum_univ_three, sphPt, Matrix.cons_val]
    linear_combination Real.sqrt (1 - (2 * u 1 - 1) ^ 2) ^ 2 * hc + hs
  · refine Measure.ext_of_lintegral _ fun g hg => ?_
    rw [lintegral_map hg (meas_mulVec R)]
    have h1 := hC _ hg
    have h2 := hC (fun x => g (R.mulVec x)) (hg.comp (meas_mulVec R))
    have h3 : ∫⁻ x in ball 3, g (R.mulVec (nrm x)) = ∫⁻ x in ball 3, g (nrm x) := by
      rw [← lintegral_indicator (measurableSet_ball 3), ← lintegral_indicator (measurableSet_ball 3),
        ← lint_rot hd ((ball 3).indicator fun x => g (nrm x)) ((hg.comp meas_nrm).indicator (measurableSet_ball 3))]
      refine lintegral_congr fun x => ?_
      have hb : R.mulVec x ∈ ball 3 ↔ x ∈ ball 3 := by
        show ∑ i, (R.mulVec x) i ^ 2 < 1 ↔ ∑ i, x i ^ 2 < 1
        rw [sum_sq_mulVec hR]
      have hn : nrm (R.mulVec x) = R.mulVec (nrm x) := by
        unfold nrm
        rw [sum_sq_mulVec hR, Matrix.mulVec_smul]
      by_cases hx : x ∈ ball 3
      · rw [Set.indicator_of_mem hx, Set.indicator_of_mem (hb.2 hx), hn]
      · rw [Set.indicator_of_notMem hx, Set.indicator_of_notMem (mt hb.1 hx)]
    rw [h3, h1] at h2
    rw [hCv] at h2
    exact ((ENNReal.mul_right_inj (volume_ball_ne_zero 3) (volume_ball_ne_top 3)).1 h2).symm

end Rand
end Npplus
