import Verif.Lemmas.RandReject
import Verif.Lemmas.Ravel
import Mathlib.MeasureTheory.Measure.Lebesgue.EqHaar

/-!
# Points computed from separate random numbers
-/

set_option linter.unusedSectionVars false
namespace Npplus
open MeasureTheory ProbabilityTheory Npplus.Randomx Npplus.Spec
open scoped ENNReal

theorem mem_indices : ∀ (s idx : List ℕ), idx ∈ indices s ↔ ValidIdx s idx
  | [], idx => by rw [validIdx_nil]; simp [indices]
  | n :: s, [] => by
    constructor
    · intro h; simp [indices] at h
    · intro h; have := h.1; simp at this
  | n :: s, i :: idx => by
    rw [validIdx_cons, ← mem_indices s idx]
    simp only [indices, Finset.mem_biUnion, Finset.mem_range, Finset.mem_image, List.cons.injEq]
    constructor
    · rintro ⟨a, h1, b, h2, rfl, rfl⟩; exact ⟨h1, h2⟩
    · rintro ⟨h1, h2⟩; exact ⟨i, h1, idx, h2, rfl, rfl⟩

namespace Rand

variable {Ω : Type} [mΩ : MeasurableSpace Ω] {μ : Measure Ω} {rng : Ω → Rng}

/-- the distribution of `random()` -/
noncomputable def U : Measure ℝ := volume.restrict (Set.Ico (0 : ℝ) 1)

instance : IsProbabilityMeasure U := ⟨by simp [U]⟩

/-- `m` random numbers -/
noncomputable def Um (m : ℕ) : Measure (Fin m → ℝ) := Measure.pi fun _ => U

instance (m : ℕ) : IsProbabilityMeasure (Um m) := by unfold Um; infer_instance

theorem map_Um (h : IdealRng μ rng) {m : ℕ} (loc : Fin m → ℕ × List ℕ) (hl : Function.Injective loc) :
    μ.map (fun ω j => rng ω (loc j).1 (loc j).2) = Um m := by
  have := h.prob
  have hi := h.indep.precomp hl
  rw [hi.map_fun_eq_pi_map fun j => (h.meas _ _).aemeasurable]
  unfold Um U
  congr 1
  funext j
  exact h.law _ _

theorem lint_prod (h : IdealRng μ rng) {m : ℕ} {E : Type} [MeasurableSpace E] (loc : List ℕ → Fin m → ℕ × List ℕ)
    (hl : ∀ i i' j j', loc i j = loc i' j' → i = i' ∧ j = j') (φ : (Fin m → ℝ) → E) (hφ : Measurable φ)
    (f : List ℕ → E → ℝ≥0∞) (hf : ∀ i, Measurable (f i)) (I : Finset (List ℕ)) :
    ∫⁻ ω, ∏ i ∈ I, f i (φ fun j => rng ω (loc i j).1 (loc i j).2) ∂μ = ∏ i ∈ I, ∫⁻ x, f i x ∂((Um m).map φ) := by
  classical
  have hms : ∀ (S : Set (ℕ × List ℕ)) i, (∀ j, loc i j ∈ S) →
      Measurable[sig rng S] fun ω => f i (φ fun j => rng ω (loc i j).1 (loc i j).2) := by
    intro S i hS
    refine ((hf i).comp hφ).comp ?_
    exact @measurable_pi_lambda _ _ _ (sig rng S) _ _ fun j => meas_mem (hS j)
  induction I using Finset.induction_on with
  | empty => have := h.prob; simp
  | insert i I hi ih =>
    simp only [Finset.prod_insert hi]
    rw [lintegral_mul h (S := {p | ∃ j, p = loc i j}) (T := {p | ∃ i' ∈ I, ∃ j, p = loc i' j}), ih]
    · congr 1
      rw [← map_Um h (loc i) (fun j j' e => (hl _ _ _ _ e).2), lintegral_map (hf i)]
      · rw [lintegral_map (f := fun a => f i (φ a)) ((hf i).comp hφ)]
        · exact measurable_pi_lambda _ fun j => h.meas _ _
      · exact hφ
    · rw [Set.disjoint_left]
      rintro p ⟨j, rfl⟩ ⟨i', hi', j', e⟩
      exact hi ((hl _ _ _ _ e).1 ▸ hi')
    · exact hms _ i fun j => ⟨j, rfl⟩
    · refine Finset.measurable_fun_prod (m := sig rng {p | ∃ i' ∈ I, ∃ j, p = loc i' j}) I fun i' hi' => hms _ i' fun j => ⟨i', hi', j, rfl⟩

theorem Um_eq (d : ℕ) : Um d = volume.restrict (Set.univ.pi fun _ => Set.Ico (0 : ℝ) 1) := by
  unfold Um U
  rw [← Measure.restrict_pi_pi]
  rfl

theorem ball_sub (d : ℕ) {x : Fin d → ℝ} (hx : x ∈ ball d) (j : Fin d) : |x j| < 1 := by
  have h1 : x j ^ 2 ≤ ∑ i, x i ^ 2 := Finset.single_le_sum (f := fun i => x i ^ 2) (fun i _ => sq_nonneg _) (Finset.mem_univ j)
  have h2 : ∑ i, x i ^ 2 < 1 := hx
  rw [← sq_lt_one_iff_abs_lt_one]
  linarith

theorem volume_ball_ne_top (d : ℕ) : volume (ball d) ≠ ⊤ := by
  refine ne_of_lt (lt_of_le_of_lt (measure_mono (t := Set.Icc (fun _ => -1) fun _ => 1) ?_) isCompact_Icc.measure_lt_top)
  intro x hx
  exact ⟨fun j => (abs_lt.1 (ball_sub d hx j)).1.le, fun j => (abs_lt.1 (ball_sub d hx j)).2.le⟩

theorem volume_ball_ne_zero (d : ℕ) : volume (ball d) ≠ 0 := by
  refine (IsOpen.measure_pos volume ?_ ⟨0, ?_⟩).ne'
  · exact isOpen_lt (by fun_prop) continuous_const
  · simp [ball]

/-- the product of the indicators is the indicator of the event -/
theorem prod_ind {E : Type} (A : List ℕ → Set E) (I : Finset (List ℕ)) (X : Ω → List ℕ → E) (ω : Ω) :
    ∏ i ∈ I, (A i).indicator (1 : E → ℝ≥0∞) (X ω i) = {ω | ∀ i ∈ I, X ω i ∈ A i}.indicator (1 : Ω → ℝ≥0∞) ω := by
  classical
  by_cases hω : ∀ i ∈ I, X ω i ∈ A i
  · rw [Set.indicator_of_mem (show ω ∈ {ω | ∀ i ∈ I, X ω i ∈ A i} from hω)]
    exact Finset.prod_eq_one fun i hi => by rw [Set.indicator_of_mem (hω i hi)]; rfl
  · rw [Set.indicator_of_notMem (show ω ∉ {ω | ∀ i ∈ I, X ω i ∈ A i} from hω)]
    push Not at hω
    obtain ⟨i, hi, h⟩ := hω
    exact Finset.prod_eq_zero hi (Set.indicator_of_notMem h _)

theorem sample_det (h : IdealRng μ rng) {m : ℕ} {E : Type} [MeasurableSpace E] (loc : List ℕ → Fin m → ℕ × List ℕ)
    (hl : ∀ i i' j j', loc i j = loc i' j' → i = i' ∧ j = j') (φ : (Fin m → ℝ) → E) (hφ : Measurable φ) (s : List ℕ)
    (X : Ω → (List ℕ → E) → Prop) (hX : ∀ ω, ∃ x, X ω x)
    (hX' : ∀ ω x, X ω x → ∀ idx ∈ indices s, x idx = φ fun j => rng ω (loc idx j).1 (loc idx j).2) :
    IsSample μ s X ((Um m).map φ) := by
  intro A hA
  have e : {ω | ∃ x, X ω x ∧ ∀ idx ∈ indices s, x idx ∈ A idx} =
      {ω | ∀ idx ∈ indices s, (fun i => φ fun j => rng ω (loc i j).1 (loc i j).2) idx ∈ A idx} := by
    ext ω
    constructor
    · rintro ⟨x, hx, hi⟩ idx hidx
      have := hi idx hidx
      rwa [hX' ω x hx idx hidx] at this
    · intro hi
      obtain ⟨x, hx⟩ := hX ω
      refine ⟨x, hx, fun idx hidx => ?_⟩
      rw [hX' ω x hx idx hidx]
      exact hi idx hidx
  have hm : MeasurableSet {ω | ∀ idx ∈ indices s, (fun i => φ fun j => rng ω (loc i j).1 (loc i j).2) idx ∈ A idx} := by
    rw [show {ω | ∀ idx ∈ indices s, (fun i => φ fun j => rng ω (loc i j).1 (loc i j).2) idx ∈ A idx} =
      ⋂ idx ∈ indices s, {ω | (φ fun j => rng ω (loc idx j).1 (loc idx j).2) ∈ A idx} by ext; simp]
    refine Finset.measurableSet_biInter _ fun idx _ => ?_
    exact (hφ.comp (measurable_pi_lambda _ fun j => h.meas _ _)) (hA idx)
  rw [e]
  refine ⟨hm, ?_⟩
  rw [← lintegral_indicator_one hm]
  simp only [← prod_ind A (indices s) (fun ω i => φ fun j => rng ω (loc i j).1 (loc i j).2)]
  rw [lint_prod h loc hl φ hφ (fun i => (A i).indicator 1) (fun i => measurable_one.indicator (hA i))]
  exact Finset.prod_congr rfl fun i _ => lintegral_indicator_one (hA i)

end Rand
end Npplus
