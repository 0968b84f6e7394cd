import Verif.Lemmas.RandSphere
import Verif.Props.Randomx

/-!
# Uniform rotations
-/

set_option linter.unusedSectionVars false
namespace Npplus
open MeasureTheory ProbabilityTheory Npplus.Randomx Npplus.Spec
open scoped ENNReal Real

namespace Rand

abbrev M3 := Matrix (Fin 3) (Fin 3) ℝ

theorem meas_m3 {α : Type} [MeasurableSpace α] {M : α → M3} (h : ∀ i j, Measurable fun x => M x i j) : Measurable M :=
  measurable_pi_lambda (f := fun x i => M x i) fun i => measurable_pi_lambda _ fun j => h i j

theorem meas_entry (i j : Fin 3) : Measurable fun M : M3 => M i j :=
  (measurable_pi_apply j).comp (measurable_pi_apply (X := fun _ : Fin 3 => Fin 3 → ℝ) i)

theorem meas_mul {α : Type} [MeasurableSpace α] {A B : α → M3} (ha : Measurable A) (hb : Measurable B) : Measurable fun x => A x * B x := by
  refine meas_m3 fun i j => ?_
  simp only [Matrix.mul_apply]
  exact Finset.measurable_fun_sum _ fun k _ => ((meas_entry i k).comp ha).mul ((meas_entry k j).comp hb)

theorem meas_tr {α : Type} [MeasurableSpace α] {A : α → M3} (ha : Measurable A) : Measurable fun x => (A x).transpose :=
  meas_m3 fun i j => (meas_entry j i).comp ha

theorem meas_mulVec3 {α : Type} [MeasurableSpace α] {A : α → M3} {x : α → Fin 3 → ℝ} (ha : Measurable A) (hx : Measurable x) :
    Measurable fun a => (A a).mulVec (x a) := by
  refine measurable_pi_lambda _ fun i => ?_
  simp only [Matrix.mulVec, dotProduct]
  exact Finset.measurable_fun_sum _ fun k _ => ((meas_entry i k).comp ha).mul ((measurable_pi_apply k).comp hx)

theorem meas_left (R : M3) : Measurable fun M : M3 => R * M := meas_mul measurable_const measurable_id

theorem meas_right (R : M3) : Measurable fun M : M3 => M * R := meas_mul measurable_id measurable_const

theorem meas_app (e : Fin 3 → ℝ) : Measurable fun M : M3 => M.mulVec e := meas_mulVec3 measurable_id measurable_const

/-- rotation matrices -/
def SO3 : Set M3 := {R | R.transpose * R = 1 ∧ R.det = 1}

theorem SO3_meas : MeasurableSet SO3 := by
  have h1 : MeasurableSet {R : M3 | R.transpose * R = 1} := by
    have : {R : M3 | R.transpose * R = 1} = ⋂ i, ⋂ j, {R : M3 | (R.transpose * R) i j = (1 : M3) i j} := by
      ext R
      simp only [Set.mem_ofPred_eq, Set.mem_iInter]
      exact ⟨fun h i j => by rw [h], fun h => by ext i j; exact h i j⟩
    rw [this]
    refine MeasurableSet.iInter fun i => MeasurableSet.iInter fun j => ?_
    exact ((meas_entry i j).comp (meas_mul (meas_tr measurable_id) measurable_id)) (measurableSet_singleton _)
  have h2 : MeasurableSet {R : M3 | R.det = 1} := by
    have : Measurable fun R : M3 => R.det := by
      simp only [Matrix.det_fin_three]
      have := meas_entry
      fun_prop
    exact this (measurableSet_singleton 1)
  exact h1.inter h2

theorem SO3.mul {A B : M3} (ha : A ∈ SO3) (hb : B ∈ SO3) : A * B ∈ SO3 := by
  refine ⟨?_, by rw [Matrix.det_mul, ha.2, hb.2, one_mul]⟩
  rw [Matrix.transpose_mul, Matrix.mul_assoc, ← Matrix.mul_assoc A.transpose, ha.1, Matrix.one_mul, hb.1]

theorem SO3.inv {A : M3} (ha : A ∈ SO3) : A * A.transpose = 1 := mul_eq_one_comm.1 ha.1

theorem SO3.tr {A : M3} (ha : A ∈ SO3) : A.transpose ∈ SO3 :=
  ⟨by rw [Matrix.transpose_transpose]; exact SO3.inv ha, by rw [Matrix.det_transpose, ha.2]⟩

/-- rotation about the third axis by `2πt` -/
noncomputable def Rz (t : ℝ) : M3 :=
  !![Real.cos (2 * π * t), Real.sin (2 * π * t), 0; -Real.sin (2 * π * t), Real.cos (2 * π * t), 0; 0, 0, 1]

theorem Rz_add (s t : ℝ) : Rz (s + t) = Rz s * Rz t := by
  unfold Rz
  ext i j
  fin_cases i <;> fin_cases j <;>
    simp [Matrix.mul_apply, Fin.sum_univ_three, mul_add, Real.cos_add, Real.sin_add] <;> ring

theorem Rz_one (t : ℝ) : Rz (t + 1) = Rz t := by
  unfold Rz
  simp [mul_add]

theorem Rz_mem (t : ℝ) : Rz t ∈ SO3 := by
  have hc := Real.cos_sq_add_sin_sq (2 * π * t)
  constructor
  · unfold Rz
    ext i j
    fin_cases i <;> fin_cases j <;> simp [Matrix.mul_apply, Fin.sum_univ_three] <;>
      first | linear_combination hc | (ring; done)
  · unfold Rz
    simp [Matrix.det_fin_three]
    linear_combination hc

theorem meas_Rz : Measurable Rz := by
  unfold Rz
  refine meas_m3 fun i j => ?_
  fin_cases i <;> fin_cases j <;> simp <;> fun_prop

/-- a rotation that leaves the third axis fixed -/
theorem rot_fix {B : M3} (hB : B ∈ SO3) (h0 : B 0 2 = 0) (h1 : B 1 2 = 0) (h2 : B 2 2 = 1) : ∃ α, B = Rz α := by
  have hi := SO3.inv hB
  have e22 := congrFun (congrFun hi 2) 2
  have e00 := congrFun (congrFun hB.1 0) 0
  have e01 := congrFun (congrFun hB.1 0) 1
  have e11 := congrFun (congrFun hB.1 1) 1
  simp [Matrix.mul_apply, Fin.sum_univ_three, h2] at e22 e00 e01 e11
  have z0 : B 2 0 = 0 := by nlinarith
  have z1 : B 2 1 = 0 := by nlinarith
  have hd := hB.2
  rw [Matrix.det_fin_three] at hd
  simp only [h0, h1, h2, z0, z1] at hd e00 e01 e11
  obtain ⟨α, a1, a2⟩ := exists_angle (a := B 0 0) (c := -B 1 0) (by linarith)
  refine ⟨α, ?_⟩
  have hb : B 0 1 = -B 1 0 := by
    linear_combination (-B 0 1) * e00 + B 0 0 * e01 - B 1 0 * hd
  have hdd : B 1 1 = B 0 0 := by
    linear_combination (-B 1 1) * e00 + B 1 0 * e01 + B 0 0 * hd
  unfold Rz
  rw [← a1, ← a2]
  ext i j
  fin_cases i <;> fin_cases j <;> simp [hb, hdd, h0, h1, h2, z0, z1]

/-! ### a rotation which takes the third axis to `p` -/

noncomputable def Hm (x y w : ℝ) : M3 := !![x * x - 1, x * y, x * w; y * x, y * y - 1, y * w; w * x, w * y, w * w - 1]

theorem Hm_mem {x y w : ℝ} (hv : x ^ 2 + y ^ 2 + w ^ 2 = 2) : Hm x y w ∈ SO3 := by
  constructor
  · unfold Hm
    ext i j
    fin_cases i <;> fin_cases j <;> simp [Matrix.mul_apply, Fin.sum_univ_three]
    · linear_combination (x * x) * hv
    · linear_combination (x * y) * hv
    · linear_combination (x * w) * hv
    · linear_combination (x * y) * hv
    · linear_combination (y * y) * hv
    · linear_combination (y * w) * hv
    · linear_combination (x * w) * hv
    · linear_combination (y * w) * hv
    · linear_combination (w * w) * hv
  · simp [Hm, Matrix.det_fin_three]; linear_combination hv

noncomputable def Hp (p : Fin 3 → ℝ) : M3 :=
  if 0 < 1 + p 2 then Hm (p 0 / Real.sqrt (1 + p 2)) (p 1 / Real.sqrt (1 + p 2)) (Real.sqrt (1 + p 2))
  else !![1, 0, 0; 0, -1, 0; 0, 0, -1]

theorem meas_Hp : Measurable Hp := by
  unfold Hp
  refine Measurable.ite ?_ ?_ measurable_const
  · exact (measurable_const.add (measurable_pi_apply 2)) measurableSet_Ioi
  · unfold Hm
    refine meas_m3 fun i j => ?_
    fin_cases i <;> fin_cases j <;> simp <;> fun_prop

theorem Hp_spec {p : Fin 3 → ℝ} (hp : p ∈ sphere 3) : Hp p ∈ SO3 ∧ ∀ i, Hp p i 2 = p i := by
  have hs : p 0 ^ 2 + p 1 ^ 2 + p 2 ^ 2 = 1 := by
    have : ∑ i, p i ^ 2 = 1 := hp
    rwa [Fin.sum_univ_three] at this
  unfold Hp
  split_ifs with h
  · have hw := Real.sq_sqrt h.le
    have hw0 : 0 < Real.sqrt (1 + p 2) := Real.sqrt_pos.2 h
    set w := Real.sqrt (1 + p 2)
    constructor
    · apply Hm_mem
      rw [div_pow, div_pow, hw]
      field_simp
      linear_combination hs
    · intro i
      fin_cases i
      · show p 0 / w * w = p 0
        field_simp
      · show p 1 / w * w = p 1
        field_simp
      · show w * w - 1 = p 2
        linear_combination hw
  · have h2 : p 2 = -1 := by nlinarith
    have h0 : p 0 = 0 := by nlinarith
    have h1 : p 1 = 0 := by nlinarith
    constructor
    · constructor
      · ext i j
        fin_cases i <;> fin_cases j <;> simp [Matrix.mul_apply, Fin.sum_univ_three]
      · simp [Matrix.det_fin_three]
    · intro i
      fin_cases i <;> simp [h0, h1, h2]

/-! ### averages over the rotations about an axis -/

noncomputable def Phi (f : M3 → ℝ≥0∞) (p : Fin 3 → ℝ) : ℝ≥0∞ := ∫⁻ t, f (Hp p * Rz t) ∂U

theorem meas_Phi {f : M3 → ℝ≥0∞} (hf : Measurable f) : Measurable (Phi f) := by
  have : Measurable (Function.uncurry fun (p : Fin 3 → ℝ) (t : ℝ) => f (Hp p * Rz t)) :=
    hf.comp (meas_mul (meas_Hp.comp measurable_fst) (meas_Rz.comp measurable_snd))
  exact this.lintegral_prod_right

theorem Phi_eq (f : M3 → ℝ≥0∞) {A : M3} (hA : A ∈ SO3) {p : Fin 3 → ℝ} (hp : p ∈ sphere 3) (hAp : ∀ i, A i 2 = p i) :
    ∫⁻ t, f (A * Rz t) ∂U = Phi f p := by
  obtain ⟨hH, hHp⟩ := Hp_spec hp
  have hB := SO3.mul (SO3.tr hH) hA
  have hcol : ∀ i, ((Hp p).transpose * A) i 2 = (1 : M3) i 2 := by
    intro i
    rw [← hH.1, Matrix.mul_apply, Matrix.mul_apply]
    exact Finset.sum_congr rfl fun k _ => by rw [hAp, hHp]
  obtain ⟨α, hα⟩ := rot_fix hB (by rw [hcol]; simp) (by rw [hcol]; simp) (by rw [hcol]; simp)
  have hA' : A = Hp p * Rz α := by
    rw [← hα, ← Matrix.mul_assoc, SO3.inv hH, Matrix.one_mul]
  unfold Phi
  rw [← lint_shift (fun t => f (Hp p * Rz t)) (fun t => by simp only [Rz_one]) α]
  refine lintegral_congr fun t => ?_
  rw [hA', add_comm, Rz_add, Matrix.mul_assoc]

/-! ### the law of `rotation3` -/

/-- a matrix of `rotation3` -/
noncomputable def rotPt (u : Fin 3 → ℝ) : M3 :=
  let x := Real.sqrt (2 * u 2) * Real.sin (2 * u 1 * π)
  let y := Real.sqrt (2 * u 2) * Real.cos (2 * u 1 * π)
  let w := Real.sqrt (2 - 2 * u 2)
  let st := Real.sin (2 * u 0 * π)
  let ct := Real.cos (2 * u 0 * π)
  !![x * (x * ct - y * st) - ct, x * (x * st + y * ct) - st, x * w;
      y * (x * ct - y * st) + st, y * (x * st + y * ct) - ct, y * w;
      w * (x * ct - y * st), w * (x * st + y * ct), 1 - 2 * u 2]

theorem meas_rotPt : Measurable rotPt := by
  unfold rotPt
  refine meas_m3 fun i j => ?_
  fin_cases i <;> fin_cases j <;> simp <;> fun_prop

/-- the pole of `rotation3`, relative to the sphere point above -/
def Pm : M3 := !![0, 0, 1; 0, 1, 0; -1, 0, 0]

theorem Pm_mem : Pm ∈ SO3 := by
  constructor
  · ext i j
    fin_cases i <;> fin_cases j <;> simp [Pm, Matrix.mul_apply, Fin.sum_univ_three]
  · simp [Pm, Matrix.det_fin_three]

theorem rotPt_eq {a b c : ℝ} (hc0 : 0 ≤ c) (hc1 : c < 1) : rotPt ![a, b, c] = Hp (Pm.mulVec (sphPt ![b, c])) * Rz a := by
  have hz : 0 ≤ 2 * c := by linarith
  have hw : 0 < 2 - 2 * c := by linarith
  have hrho : Real.sqrt (1 - (2 * c - 1) ^ 2) = Real.sqrt (2 * c) * Real.sqrt (2 - 2 * c) := by
    rw [← Real.sqrt_mul hz]; congr 1; ring
  have hq : Pm.mulVec (sphPt ![b, c]) = ![Real.sqrt (2 * c) * Real.sqrt (2 - 2 * c) * Real.sin (2 * π * b),
      Real.sqrt (2 * c) * Real.sqrt (2 - 2 * c) * Real.cos (2 * π * b), 1 - 2 * c] := by
    funext i
    fin_cases i <;> simp [Pm, sphPt, Matrix.mulVec, dotProduct, Fin.sum_univ_three, hrho]
  rw [hq]
  unfold Hp
  have h2 : (![Real.sqrt (2 * c) * Real.sqrt (2 - 2 * c) * Real.sin (2 * π * b),
      Real.sqrt (2 * c) * Real.sqrt (2 - 2 * c) * Real.cos (2 * π * b), 1 - 2 * c] : Fin 3 → ℝ) 2 = 1 - 2 * c := rfl
  rw [h2, if_pos (by linarith), show 1 + (1 - 2 * c) = 2 - 2 * c by ring]
  simp only [Matrix.cons_val_zero, Matrix.cons_val_one]
  have hwp : 0 < Real.sqrt (2 - 2 * c) := Real.sqrt_pos.2 hw
  have hww := Real.mul_self_sqrt hw.le
  have d1 : Real.sqrt (2 * c) * Real.sqrt (2 - 2 * c) * Real.sin (2 * π * b) / Real.sqrt (2 - 2 * c) = Real.sqrt (2 * c) * Real.sin (2 * π * b) := by
    rw [div_eq_iff hwp.ne']; ring
  have d2 : Real.sqrt (2 * c) * Real.sqrt (2 - 2 * c) * Real.cos (2 * π * b) / Real.sqrt (2 - 2 * c) = Real.sqrt (2 * c) * Real.cos (2 * π * b) := by
    rw [div_eq_iff hwp.ne']; ring
  rw [d1, d2]
  unfold rotPt Hm Rz
  simp only [Matrix.cons_val]
  rw [show 2 * b * π = 2 * π * b by ring, show 2 * a * π = 2 * π * a by ring]
  ext i j
  fin_cases i <;> fin_cases j <;> simp [Matrix.mul_apply, Fin.sum_univ_three]
  · ring
  · ring
  · ring
  · ring
  · ring
  · ring
  · rw [hww]; ring

theorem lint_rotPt (f : M3 → ℝ≥0∞) (hf : Measurable f) :
    ∫⁻ M, f M ∂((Um 3).map rotPt) = ∫⁻ p, Phi f p ∂((Um 2).map sphPt) := by
  have hinv := law_sph.inv Pm Pm_mem.1 Pm_mem.2
  have hm2 : Measurable fun u => Pm.mulVec (sphPt u) := (meas_mulVec Pm).comp meas_sphPt
  have e1 : ∫⁻ p, Phi f p ∂((Um 2).map sphPt) = ∫⁻ u, Phi f (Pm.mulVec (sphPt u)) ∂(Um 2) := by
    rw [← hinv, lintegral_map (meas_Phi hf) (meas_mulVec Pm), lintegral_map (f := fun x => Phi f (Pm.mulVec x)) ((meas_Phi hf).comp (meas_mulVec Pm)) meas_sphPt]
  rw [e1, lintegral_map hf meas_rotPt, Um, lint_succ U 2 (fun u => f (rotPt u)) (hf.comp meas_rotPt)]
  have e2 : ∀ a, ∫⁻ v, f (rotPt (Matrix.vecCons a v)) ∂(Measure.pi fun _ : Fin 2 => U) =
      ∫⁻ v, f (Hp (Pm.mulVec (sphPt v)) * Rz a) ∂(Measure.pi fun _ : Fin 2 => U) := by
    intro a
    have hUm := Um_eq 2
    unfold Um at hUm
    rw [hUm]
    refine setLIntegral_congr_fun (MeasurableSet.univ_pi fun _ => measurableSet_Ico) fun v hv => ?_
    have hv2 : v = ![v 0, v 1] := by funext i; fin_cases i <;> rfl
    have := rotPt_eq (a := a) (b := v 0) (hv 1 trivial).1 (hv 1 trivial).2
    rw [← hv2] at this
    show f (rotPt (Matrix.vecCons a v)) = f (Hp (Pm.mulVec (sphPt v)) * Rz a)
    rw [← this]
  have e3 : ∫⁻ a, ∫⁻ v, f (rotPt (Matrix.vecCons a v)) ∂(Measure.pi fun _ : Fin 2 => U) ∂U =
      ∫⁻ a, ∫⁻ v, f (Hp (Pm.mulVec (sphPt v)) * Rz a) ∂(Measure.pi fun _ : Fin 2 => U) ∂U := lintegral_congr e2
  refine e3.trans ?_
  rw [lintegral_lintegral_swap]
  · rfl
  · exact (hf.comp (meas_mul (meas_Hp.comp (hm2.comp measurable_snd)) (meas_Rz.comp measurable_fst))).aemeasurable

theorem rotPt_left {R : M3} (hR : R ∈ SO3) (f : M3 → ℝ≥0∞) (hf : Measurable f) :
    ∫⁻ M, f (R * M) ∂((Um 3).map rotPt) = ∫⁻ M, f M ∂((Um 3).map rotPt) := by
  have hfR : Measurable fun M => f (R * M) := hf.comp (meas_mul measurable_const measurable_id)
  rw [lint_rotPt _ hfR, lint_rotPt f hf]
  have hae : ∀ᵐ p ∂((Um 2).map sphPt), p ∈ sphere 3 := by
    rw [ae_iff]
    exact law_sph.on
  rw [lintegral_congr_ae (g := fun p => Phi f (R.mulVec p))]
  · rw [← lintegral_map (meas_Phi hf) (meas_mulVec R), law_sph.inv R hR.1 hR.2]
  · filter_upwards [hae] with p hp
    obtain ⟨hH, hHp⟩ := Hp_spec hp
    have hRp : R.mulVec p ∈ sphere 3 := by
      show ∑ i, (R.mulVec p) i ^ 2 = 1
      rw [sum_sq_mulVec hR.1]; exact hp
    rw [← Phi_eq f (SO3.mul hR hH) hRp]
    · unfold Phi
      simp only [Matrix.mul_assoc]
    · intro i
      rw [Matrix.mul_apply]
      simp only [hHp]
      rfl

theorem rotPt_on : ∀ᵐ M ∂((Um 3).map rotPt), M ∈ SO3 := by
  refine (ae_map_iff (p := fun M => M ∈ SO3) meas_rotPt.aemeasurable SO3_meas).2 ?_
  rw [Um_eq]
  rw [ae_restrict_iff' (MeasurableSet.univ_pi fun _ => measurableSet_Ico)]
  refine Filter.Eventually.of_forall fun u hu => ?_
  have hu2 : u = ![u 0, u 1, u 2] := by funext i; fin_cases i <;> rfl
  rw [hu2, rotPt_eq (hu 2 trivial).1 (hu 2 trivial).2]
  refine SO3.mul (Hp_spec ?_).1 (Rz_mem _)
  show ∑ i, (Pm.mulVec _) i ^ 2 = 1
  rw [sum_sq_mulVec Pm_mem.1]
  have h0 := (hu 2 trivial).1
  have h1 := (hu 2 trivial).2
  have hs := Real.sq_sqrt (show 0 ≤ 1 - (2 * u 2 - 1) ^ 2 by nlinarith)
  have hc := Real.cos_sq_add_sin_sq (2 * π * u 1)
  simp only [Fin.sum_univ_three, sphPt, Matrix.cons_val]
  linear_combination Real.sqrt (1 - (2 * u 2 - 1) ^ 2) ^ 2 * hc + hs

/-- a left invariant distribution of rotations is invariant under transposition, hence right invariant -/
theorem tr_inv {ν : Measure M3} [IsProbabilityMeasure ν] (hon : ∀ᵐ M ∂ν, M ∈ SO3)
    (hl : ∀ R ∈ SO3, ∀ f : M3 → ℝ≥0∞, Measurable f → ∫⁻ M, f (R * M) ∂ν = ∫⁻ M, f M ∂ν) (f : M3 → ℝ≥0∞) (hf : Measurable f) :
    ∫⁻ M, f M ∂ν = ∫⁻ M, f M.transpose ∂ν := by
  have h1 : ∫⁻ y, ∫⁻ x, f (y.transpose * x) ∂ν ∂ν = ∫⁻ M, f M ∂ν := by
    rw [lintegral_congr_ae (g := fun _ => ∫⁻ M, f M ∂ν)]
    · simp
    · filter_upwards [hon] with y hy
      exact hl _ (SO3.tr hy) f hf
  have h2 : ∫⁻ x, ∫⁻ y, f (y.transpose * x) ∂ν ∂ν = ∫⁻ M, f M.transpose ∂ν := by
    rw [lintegral_congr_ae (g := fun _ => ∫⁻ M, f M.transpose ∂ν)]
    · simp
    · filter_upwards [hon] with x hx
      rw [← hl _ (SO3.tr hx) (fun M => f M.transpose) (hf.comp (meas_tr measurable_id))]
      simp [Matrix.transpose_mul]
  rw [← h1, ← h2]
  refine lintegral_lintegral_swap ?_
  exact (hf.comp (meas_mul (meas_tr measurable_fst) measurable_snd)).aemeasurable

theorem law_rot : UniformRotation ((Um 3).map rotPt) := by
  have hp : IsProbabilityMeasure ((Um 3).map rotPt) := Measure.isProbabilityMeasure_map meas_rotPt.aemeasurable
  refine ⟨hp, ?_, fun R hR hd => ?_, fun R hR hd => ?_⟩
  · exact ae_iff.1 rotPt_on
  · refine Measure.ext_of_lintegral _ fun f hf => ?_
    rw [lintegral_map hf (meas_left R)]
    exact rotPt_left ⟨hR, hd⟩ f hf
  · refine Measure.ext_of_lintegral _ fun f hf => ?_
    have hRS : R ∈ SO3 := ⟨hR, hd⟩
    have hl : ∀ R ∈ SO3, ∀ f : M3 → ℝ≥0∞, Measurable f → ∫⁻ M, f (R * M) ∂((Um 3).map rotPt) = ∫⁻ M, f M ∂((Um 3).map rotPt) :=
      fun R hR f hf => rotPt_left hR f hf
    rw [lintegral_map hf (meas_right R)]
    rw [tr_inv rotPt_on hl (fun M => f (M * R)) (hf.comp (meas_mul measurable_id measurable_const)), tr_inv rotPt_on hl f hf]
    rw [← hl _ (SO3.tr hRS) (fun M => f M.transpose) (hf.comp (meas_tr measurable_id))]
    simp [Matrix.transpose_mul]

/-! ### uniqueness -/

theorem unique_circ {ν : Measure (Fin 2 → ℝ)} (h : UniformOnSphere ν) : ν = (Um 1).map circPt := by
  have hp := h.prob
  have hae : ∀ᵐ p ∂ν, p ∈ sphere 2 := ae_iff.2 h.on
  refine Measure.ext_of_lintegral _ fun g hg => ?_
  let R : ℝ → Matrix (Fin 2) (Fin 2) ℝ := fun α => !![Real.cos (2 * π * α), -Real.sin (2 * π * α); Real.sin (2 * π * α), Real.cos (2 * π * α)]
  have hR : ∀ α, (R α).transpose * R α = 1 ∧ (R α).det = 1 := by
    intro α
    have hc := Real.cos_sq_add_sin_sq (2 * π * α)
    constructor
    · ext i j
      fin_cases i <;> fin_cases j <;> simp [R, Matrix.mul_apply, Fin.sum_univ_two] <;> first | linear_combination hc | ring
    · simp [R, Matrix.det_fin_two]; linear_combination hc
  have h1 : ∫⁻ t, ∫⁻ x, g ((R t).mulVec x) ∂ν ∂U = ∫⁻ x, g x ∂ν := by
    have : ∀ t, ∫⁻ x, g ((R t).mulVec x) ∂ν = ∫⁻ x, g x ∂ν := by
      intro t
      rw [← lintegral_map hg (meas_mulVec _), h.inv _ (hR t).1 (hR t).2]
    simp only [this]
    simp
  have h2 : ∫⁻ x, ∫⁻ t, g ((R t).mulVec x) ∂U ∂ν = ∫⁻ x, g x ∂((Um 1).map circPt) := by
    rw [lintegral_map hg meas_circPt, Um, lint_one U (fun u => g (circPt u)) (hg.comp meas_circPt),
      lintegral_congr_ae (g := fun _ => ∫⁻ a, g (circPt ![a]) ∂U)]
    · simp
    · filter_upwards [hae] with x hx
      have hs : x 0 ^ 2 + x 1 ^ 2 = 1 := by
        have : ∑ i, x i ^ 2 = 1 := hx
        rwa [Fin.sum_univ_two] at this
      obtain ⟨α, h1, h2⟩ := exists_angle hs
      rw [← lint_shift (fun t => g (circPt ![t])) (fun t => by simp [circPt, mul_add]) α]
      refine lintegral_congr fun t => ?_
      congr 1
      funext i
      fin_cases i <;> simp [R, circPt, Matrix.mulVec, dotProduct, Fin.sum_univ_two, h1, h2, mul_add, Real.cos_add, Real.sin_add] <;> ring
  rw [← h1, ← h2]
  refine lintegral_lintegral_swap ?_
  refine (hg.comp ?_).aemeasurable
  refine measurable_pi_lambda _ fun i => ?_
  fin_cases i <;> simp [R, Matrix.mulVec, dotProduct, Fin.sum_univ_two] <;> fun_prop

theorem unique_rot {ν : Measure (Fin 3 → ℝ)} (h : UniformOnSphere ν) {N : Measure M3} (hN : UniformRotation N) {e : Fin 3 → ℝ} (he : e ∈ sphere 3) :
    ν = N.map fun M => M.mulVec e := by
  have hp := h.prob
  have hp' := hN.prob
  have hae : ∀ᵐ p ∂ν, p ∈ sphere 3 := ae_iff.2 h.on
  have haN : ∀ᵐ M ∂N, M ∈ SO3 := ae_iff.2 hN.on
  refine Measure.ext_of_lintegral _ fun g hg => ?_
  have h1 : ∫⁻ M, ∫⁻ x, g (M.mulVec x) ∂ν ∂N = ∫⁻ x, g x ∂ν := by
    rw [lintegral_congr_ae (g := fun _ => ∫⁻ x, g x ∂ν)]
    · simp
    · filter_upwards [haN] with M hM
      rw [← lintegral_map hg (meas_mulVec _), h.inv _ hM.1 hM.2]
  have hgx : ∀ x : Fin 3 → ℝ, Measurable fun M : M3 => g (M.mulVec x) := fun x => hg.comp (meas_mulVec3 measurable_id measurable_const)
  have h2 : ∫⁻ x, ∫⁻ M, g (M.mulVec x) ∂N ∂ν = ∫⁻ x, g x ∂(N.map fun M => M.mulVec e) := by
    rw [lintegral_map hg (meas_app e), lintegral_congr_ae (g := fun _ => ∫⁻ M, g (M.mulVec e) ∂N)]
    · simp
    · filter_upwards [hae] with x hx
      obtain ⟨a1, a2⟩ := Hp_spec hx
      obtain ⟨b1, b2⟩ := Hp_spec he
      have hx' : x = (Hp x * (Hp e).transpose).mulVec e := by
        have c1 : ∀ y : Fin 3 → ℝ, y ∈ sphere 3 → (Hp y).mulVec ![0, 0, 1] = y := by
          intro y hy
          funext i
          simp [Matrix.mulVec, dotProduct, Fin.sum_univ_three, (Hp_spec hy).2]
        have c2 := congrArg (Hp x * (Hp e).transpose).mulVec (c1 e he)
        rw [Matrix.mulVec_mulVec, Matrix.mul_assoc, b1.1, Matrix.mul_one, c1 x hx] at c2
        exact c2
      have hRS := SO3.mul a1 (SO3.tr b1)
      have := hN.right _ hRS.1 hRS.2
      have h3 : ∫⁻ M, g (M.mulVec e) ∂(N.map fun M => M * (Hp x * (Hp e).transpose)) = ∫⁻ M, g (M.mulVec x) ∂N := by
        rw [lintegral_map (hgx e) (meas_right _)]
        refine lintegral_congr fun M => ?_
        rw [← Matrix.mulVec_mulVec, ← hx']
      rw [← h3, this]
  rw [← h1, ← h2]
  refine lintegral_lintegral_swap ?_
  exact (hg.comp (meas_mulVec3 measurable_fst measurable_snd)).aemeasurable

theorem unique_rotation {N N' : Measure M3} (h : UniformRotation N) (h' : UniformRotation N') : N = N' := by
  have hp := h.prob
  have hp' := h'.prob
  have hae : ∀ᵐ M ∂N, M ∈ SO3 := ae_iff.2 h.on
  have hae' : ∀ᵐ M ∂N', M ∈ SO3 := ae_iff.2 h'.on
  refine Measure.ext_of_lintegral _ fun f hf => ?_
  have h1 : ∫⁻ x, ∫⁻ y, f (x * y) ∂N ∂N' = ∫⁻ M, f M ∂N := by
    rw [lintegral_congr_ae (g := fun _ => ∫⁻ M, f M ∂N)]
    · simp
    · filter_upwards [hae'] with x hx
      rw [← lintegral_map hf (meas_left x), h.left x hx.1 hx.2]
  have h2 : ∫⁻ y, ∫⁻ x, f (x * y) ∂N' ∂N = ∫⁻ M, f M ∂N' := by
    rw [lintegral_congr_ae (g := fun _ => ∫⁻ M, f M ∂N')]
    · simp
    · filter_upwards [hae] with y hy
      rw [← lintegral_map hf (meas_right y), h'.right y hy.1 hy.2]
  rw [← h1, ← h2]
  exact lintegral_lintegral_swap (hf.comp (meas_mul measurable_fst measurable_snd)).aemeasurable

end Rand
end Npplus
