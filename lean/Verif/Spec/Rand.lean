import Verif.Model.Randomx
import Mathlib.Probability.Independence.InfinitePi
import Mathlib.Probability.Distributions.Uniform
import Mathlib.LinearAlgebra.UnitaryGroup

/-!
# Specification: random numbers and uniform distributions

No model of the generator's algorithm: the numbers `random()` returns are independent and uniformly distributed in `[0, 1)`.
-/

set_option linter.unusedSectionVars false
namespace Npplus.Spec
open MeasureTheory ProbabilityTheory Npplus.Randomx

variable {Ω : Type} [MeasurableSpace Ω]

/-- An ideal generator: for each outcome `ω` a run of the generator (call number, multi-index ↦ value), all values independent and
uniform in `[0, 1)`. -/
structure IdealRng (μ : Measure Ω) (rng : Ω → Rng) : Prop where
  meas : ∀ k idx, Measurable fun ω => rng ω k idx
  law : ∀ k idx, μ.map (fun ω => rng ω k idx) = volume.restrict (Set.Ico (0 : ℝ) 1)
  indep : iIndepFun (fun (p : ℕ × List ℕ) ω => rng ω p.1 p.2) μ

/-- the open unit ball of dimension `d` (disc, ball) -/
def ball (d : ℕ) : Set (Fin d → ℝ) := {x | ∑ i, x i ^ 2 < 1}

/-- the unit sphere (circle, sphere) -/
def sphere (d : ℕ) : Set (Fin d → ℝ) := {x | ∑ i, x i ^ 2 = 1}

/-- the point with the leading index `idx` of an array whose last axis has length `d` -/
def pointAt (d : ℕ) (a : NdArr ℝ) (idx : List ℕ) : Fin d → ℝ := fun j => a.get (idx ++ [(j : ℕ)])

/-- The uniform distribution on the sphere: the probability distribution on the sphere which every rotation leaves
unchanged. -/
structure UniformOnSphere {d : ℕ} (ν : Measure (Fin d → ℝ)) : Prop where
  prob : IsProbabilityMeasure ν
  on : ν (sphere d)ᶜ = 0
  inv : ∀ R : Matrix (Fin d) (Fin d) ℝ, R.transpose * R = 1 → R.det = 1 → ν.map R.mulVec = ν

instance : MeasurableSpace (Matrix (Fin 3) (Fin 3) ℝ) := inferInstanceAs (MeasurableSpace (Fin 3 → Fin 3 → ℝ))

/-- The uniform distribution of rotations: the probability distribution on the rotation matrices which does not change
when a fixed rotation follows, or precedes, the random one (the Haar measure of SO(3)). -/
structure UniformRotation (ν : Measure (Matrix (Fin 3) (Fin 3) ℝ)) : Prop where
  prob : IsProbabilityMeasure ν
  on : ν {R | R.transpose * R = 1 ∧ R.det = 1}ᶜ = 0
  left : ∀ R : Matrix (Fin 3) (Fin 3) ℝ, R.transpose * R = 1 → R.det = 1 → ν.map (fun M => R * M) = ν
  right : ∀ R : Matrix (Fin 3) (Fin 3) ℝ, R.transpose * R = 1 → R.det = 1 → ν.map (fun M => M * R) = ν

/-- the matrix with the leading index `idx` of an array whose last two axes have length 3 -/
def matrixAt (a : NdArr ℝ) (idx : List ℕ) : Matrix (Fin 3) (Fin 3) ℝ := fun i j => a.get (idx ++ [(i : ℕ), (j : ℕ)])

/-- the multi-indices of an array of shape `s` -/
def indices : List ℕ → Finset (List ℕ)
  | [] => {[]}
  | n :: s => (Finset.range n).biUnion fun i => (indices s).image (i :: ·)

/-- `X ω x` says: with the outcome `ω` the function returns the array of points `x`.  It returns a sample of the distribution
`ν`: the points with different indices are independent and each has the distribution `ν`.  (All `A` the whole space: with
probability 1 it returns.  One `A` arbitrary: the distribution of one point.) -/
def IsSample {E : Type} [MeasurableSpace E] (μ : Measure Ω) (s : List ℕ) (X : Ω → (List ℕ → E) → Prop) (ν : Measure E) : Prop :=
  ∀ A : List ℕ → Set E, (∀ idx, MeasurableSet (A idx)) →
    MeasurableSet {ω | ∃ x, X ω x ∧ ∀ idx ∈ indices s, x idx ∈ A idx} ∧
    μ {ω | ∃ x, X ω x ∧ ∀ idx ∈ indices s, x idx ∈ A idx} = ∏ idx ∈ indices s, ν (A idx)

/-- There is an ideal generator. -/
theorem exists_idealRng : ∃ (Ω : Type) (_ : MeasurableSpace Ω) (μ : Measure Ω) (_ : IsProbabilityMeasure μ) (rng : Ω → Rng), IdealRng μ rng := by
  have hp : IsProbabilityMeasure (volume.restrict (Set.Ico (0 : ℝ) 1)) := ⟨by simp⟩
  refine ⟨ℕ × List ℕ → ℝ, inferInstance, Measure.infinitePi fun _ => volume.restrict (Set.Ico (0 : ℝ) 1), inferInstance,
    fun ω k idx => ω (k, idx), ⟨fun k idx => measurable_pi_apply _, fun k idx => ?_, ?_⟩⟩
  · exact Measure.infinitePi_map_eval _ (k, idx)
  · exact iIndepFun_infinitePi (X := fun _ x => x) fun _ => measurable_id

theorem IdealRng.prob {μ : Measure Ω} {rng : Ω → Rng} (h : IdealRng μ rng) : IsProbabilityMeasure μ := by
  have e := h.law 0 []
  have : (μ.map (fun ω => rng ω 0 [])) Set.univ = 1 := by rw [e]; simp
  rw [Measure.map_apply (h.meas 0 []) MeasurableSet.univ] at this
  exact ⟨by simpa using this⟩

end Npplus.Spec
