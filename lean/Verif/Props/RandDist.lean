import Verif.Lemmas.RandBall
import Verif.Lemmas.RandRot

/-!
# C86–C89: the distributions of the points of randomx.py

The generator is ideal (`IdealRng`: independent numbers, uniform in `[0, 1)`); such a generator exists (`exists_idealRng`).
-/

set_option linter.unusedSectionVars false
namespace Npplus
open MeasureTheory ProbabilityTheory Npplus.Randomx Npplus.Spec Npplus.Rand
open scoped ENNReal Real

variable {Ω : Type} [mΩ : MeasurableSpace Ω] {μ : Measure Ω} {rng : Ω → Rng}

/-! ### C86 -/

theorem incircle_small (r : Rng) (s : List ℕ) (fuel : ℕ) (size : Size) (hs : size.toTuple = s) (hn : s.prod < 330) :
    ∃ a, incircle r size fuel = some (.ok a) ∧ ∀ idx, ValidIdx s idx →
      pointAt 2 a idx = discPt fun j => r 0 ((j : ℕ) :: (idx ++ [0])) := by
  unfold incircle
  simp only [hs, if_pos hn]
  obtain ⟨w1, w2⟩ := catLast_spec (s := s) (d := 1) (e := 1)
    (a := ((unpack 0 (random r 0 (2 :: (s ++ [1])))).map fun t => t * (2 * Real.pi)).map Real.cos)
    (b := ((unpack 0 (random r 0 (2 :: (s ++ [1])))).map fun t => t * (2 * Real.pi)).map Real.sin) rfl rfl
  obtain ⟨a, e1, e2, e3⟩ := zip_last (s := s) (d := 2) (f := (· * ·))
    (z := (unpack 1 (random r 0 (2 :: (s ++ [1])))).map Real.sqrt) rfl w1
  refine ⟨a, by rw [e1], fun idx hidx => ?_⟩
  funext j
  fin_cases j
  · show a.get (idx ++ [0]) = _
    rw [e3 idx 0 hidx (by omega), w2 idx 0 hidx, if_pos (by omega)]
    rfl
  · show a.get (idx ++ [1]) = _
    rw [e3 idx 1 hidx (by omega), w2 idx 1 hidx, if_neg (by omega)]
    rfl

/-- **C86**. `incircle(size)` returns independent points, each uniformly distributed in the unit disc — for every `size`, in both
algorithms; in particular it returns with probability 1. -/
theorem C86_incircle (h : IdealRng μ rng) (size : Size) :
    IsSample μ size.toTuple (fun ω x => ∃ fuel a, incircle (rng ω) size fuel = some (.ok a) ∧ x = pointAt 2 a)
      (ProbabilityTheory.cond volume (ball 2)) := by
  by_cases hn : size.toTuple.prod < 330
  · rw [← law_disc]
    refine sample_det h (fun idx j => (0, (j : ℕ) :: (idx ++ [0]))) ?_ discPt meas_discPt _ _ ?_ ?_
    · intro i i' j j' e
      simp only [Prod.mk.injEq, List.cons.injEq, List.append_cancel_right_eq, true_and, Fin.val_inj] at e
      exact ⟨e.2, e.1⟩
    · intro ω
      obtain ⟨a, h1, _⟩ := incircle_small (rng ω) _ 0 size rfl hn
      exact ⟨_, 0, a, h1, rfl⟩
    · rintro ω x ⟨fuel, a, h1, rfl⟩ idx hidx
      obtain ⟨a', h1', h2⟩ := incircle_small (rng ω) _ fuel size rfl hn
      rw [h1] at h1'
      cases h1'
      exact h2 idx ((mem_indices _ _).1 hidx)
  · refine sample_reject h 2 (fac := 4 / Real.pi) (by rw [le_div_iff₀ Real.pi_pos]; linarith [Real.pi_le_four]) _ _ fun ω x => ?_
    unfold incircle
    simp only [if_neg hn, Option.map_eq_some_iff]
    constructor
    · rintro ⟨fuel, a, ⟨p, hp, e⟩, rfl⟩
      cases e
      exact ⟨fuel, p, hp, rfl⟩
    · rintro ⟨fuel, p, hp, rfl⟩
      exact ⟨fuel, _, ⟨p, hp, rfl⟩, rfl⟩

/-- What `IsSample` says about one point: `incircle` returns with probability 1, and the probability that the point at `idx` is in
the set `B` is the area of `B` in the disc divided by the area of the disc. -/
theorem C86_one_point (h : IdealRng μ rng) (size : Size) (idx : List ℕ) (hidx : ValidIdx size.toTuple idx) (B : Set (Fin 2 → ℝ))
    (hB : MeasurableSet B) :
    μ {ω | ∃ fuel a, incircle (rng ω) size fuel = some (.ok a)} = 1 ∧
    μ {ω | ∃ fuel a, incircle (rng ω) size fuel = some (.ok a) ∧ pointAt 2 a idx ∈ B} = volume (B ∩ ball 2) / volume (ball 2) := by
  classical
  have hs := C86_incircle h size
  have hp : IsProbabilityMeasure (ProbabilityTheory.cond (volume : Measure (Fin 2 → ℝ)) (ball 2)) :=
    cond_isProbabilityMeasure_of_finite (volume_ball_ne_zero 2) (volume_ball_ne_top 2)
  constructor
  · have := (hs (fun _ => Set.univ) fun _ => MeasurableSet.univ).2
    simp only [measure_univ, Finset.prod_const_one, Set.mem_univ, implies_true, and_true] at this
    rw [← this]
    congr 1
    ext ω
    constructor
    · rintro ⟨fuel, a, e⟩; exact ⟨_, fuel, a, e, rfl⟩
    · rintro ⟨_, fuel, a, e, _⟩; exact ⟨fuel, a, e⟩
  · have := (hs (fun i => if i = idx then B else Set.univ) fun i => by split_ifs; exacts [hB, MeasurableSet.univ]).2
    rw [Finset.prod_eq_single idx, if_pos rfl, ProbabilityTheory.cond_apply (measurableSet_ball 2)] at this
    · rw [ENNReal.div_eq_inv_mul, Set.inter_comm, ← this]
      congr 1
      ext ω
      constructor
      · rintro ⟨fuel, a, e, hb⟩
        refine ⟨_, ⟨fuel, a, e, rfl⟩, fun i _ => ?_⟩
        split_ifs with hi
        · rw [hi]; exact hb
        · trivial
      · rintro ⟨_, ⟨fuel, a, e, rfl⟩, hi⟩
        have := hi idx ((mem_indices _ _).2 hidx)
        rw [if_pos rfl] at this
        exact ⟨fuel, a, e, this⟩
    · intro i _ hi
      rw [if_neg hi, measure_univ]
    · intro hni
      exact absurd ((mem_indices _ _).2 hidx) hni

/-! ### C87 -/

/-- **C87**. `oncircle(size)` returns independent points, each with the uniform distribution on the unit circle. -/
theorem C87_oncircle (h : IdealRng μ rng) (k : ℕ) (size : Size) :
    ∃ ν, UniformOnSphere (d := 2) ν ∧ IsSample μ size.toTuple (fun ω x => x = pointAt 2 (oncircle (rng ω) k size)) ν := by
  refine ⟨_, law_circ, ?_⟩
  refine sample_det h (fun idx _ => (k, idx ++ [0])) ?_ circPt meas_circPt _ _ (fun ω => ⟨_, rfl⟩) ?_
  · intro i i' j j' e
    simp only [Prod.mk.injEq, List.append_cancel_right_eq, true_and] at e
    exact ⟨e, Subsingleton.elim _ _⟩
  · rintro ω x rfl idx hidx
    have hv := (mem_indices _ _).1 hidx
    obtain ⟨w1, w2⟩ := catLast_spec (s := size.toTuple) (d := 1) (e := 1)
      (a := ((random (rng ω) k (size.toTuple ++ [1])).map fun t => 2 * Real.pi * t).map Real.cos)
      (b := ((random (rng ω) k (size.toTuple ++ [1])).map fun t => 2 * Real.pi * t).map Real.sin) rfl rfl
    funext j
    fin_cases j
    · have := w2 idx 0 hv
      rw [if_pos (by omega)] at this
      exact this
    · have := w2 idx 1 hv
      rw [if_neg (by omega)] at this
      exact this

/-- the cyclic permutation of the axes -/
def Cyc : M3 := !![0, 1, 0; 0, 0, 1; 1, 0, 0]

theorem Cyc_mem : Cyc ∈ SO3 := by
  constructor
  · ext i j
    fin_cases i <;> fin_cases j <;> simp [Cyc, Matrix.mul_apply, Fin.sum_univ_three]
  · simp [Cyc, Matrix.det_fin_three]

/-- **C87**. `onsphere(size)` returns independent points, each with the uniform distribution on the unit sphere. -/
theorem C87_onsphere (h : IdealRng μ rng) (size : Size) :
    ∃ ν, UniformOnSphere (d := 3) ν ∧
      IsSample μ size.toTuple (fun ω x => ∃ a, onsphere (rng ω) size = .ok a ∧ x = pointAt 3 a) ν := by
  refine ⟨_, law_sph, ?_⟩
  rw [← law_sph.inv Cyc Cyc_mem.1 Cyc_mem.2, Measure.map_map (meas_mulVec Cyc) meas_sphPt]
  have key : ∀ r : Rng, ∃ a, onsphere r size = .ok a ∧ ∀ idx, ValidIdx size.toTuple idx →
      pointAt 3 a idx = Cyc.mulVec (sphPt fun j : Fin 2 => r j (idx ++ [0])) := by
    intro r
    obtain ⟨c1, c2⟩ := C68_oncircle r 0 size
    obtain ⟨v1, v2⟩ := catLast_spec (s := size.toTuple) (d := 1) (e := 1)
      (a := ((random r 0 (size.toTuple ++ [1])).map fun t => 2 * Real.pi * t).map Real.cos)
      (b := ((random r 0 (size.toTuple ++ [1])).map fun t => 2 * Real.pi * t).map Real.sin) rfl rfl
    obtain ⟨xy, e1, e2, e3⟩ := zip_last' (s := size.toTuple) (d := 2) (f := (· * ·)) (w := oncircle r 0 size)
      (z := ((random r 1 ((oncircle r 0 size).shape.dropLast ++ [1])).map fun z => 2 * z - 1).map fun z => Real.sqrt (1 - z * z))
      (by simp [NdArr.map, random, c1]) c1
    obtain ⟨w1, w2⟩ := catLast_spec (b := (random r 1 ((oncircle r 0 size).shape.dropLast ++ [1])).map fun z => 2 * z - 1)
      (e := 1) e2 (by simp [NdArr.map, random, c1])
    refine ⟨catLast size.toTuple.length xy ((random r 1 ((oncircle r 0 size).shape.dropLast ++ [1])).map fun z => 2 * z - 1), ?_,
      fun idx hidx => ?_⟩
    · unfold onsphere
      simp only [bind, Except.bind, e1]
      rfl
    · have o0 : (oncircle r 0 size).get (idx ++ [0]) = Real.cos (2 * π * r 0 (idx ++ [0])) := by
        have := v2 idx 0 hidx
        rw [if_pos (by omega)] at this
        exact this
      have o1 : (oncircle r 0 size).get (idx ++ [1]) = Real.sin (2 * π * r 0 (idx ++ [0])) := by
        have := v2 idx 1 hidx
        rw [if_neg (by omega)] at this
        exact this
      funext j
      fin_cases j
      · show (catLast _ _ _).get (idx ++ [0]) = _
        rw [w2 idx 0 hidx, if_pos (by omega), e3 idx 0 hidx (by omega), o0]
        simp [Cyc, sphPt, Matrix.mulVec, dotProduct, Fin.sum_univ_three, NdArr.map, random]
        rw [mul_comm, pow_two]
      · show (catLast _ _ _).get (idx ++ [1]) = _
        rw [w2 idx 1 hidx, if_pos (by omega), e3 idx 1 hidx (by omega), o1]
        simp [Cyc, sphPt, Matrix.mulVec, dotProduct, Fin.sum_univ_three, NdArr.map, random]
        rw [mul_comm, pow_two]
      · show (catLast _ _ _).get (idx ++ [2]) = _
        rw [w2 idx 2 hidx, if_neg (by omega)]
        simp [Cyc, sphPt, Matrix.mulVec, dotProduct, Fin.sum_univ_three, NdArr.map, random]
  refine sample_det h (fun idx (j : Fin 2) => ((j : ℕ), idx ++ [0])) ?_ _ ((meas_mulVec Cyc).comp meas_sphPt) _ _ ?_ ?_
  · intro i i' j j' e
    simp only [Prod.mk.injEq, List.append_cancel_right_eq, Fin.val_inj] at e
    exact ⟨e.2, e.1⟩
  · intro ω
    obtain ⟨a, ha, _⟩ := key (rng ω)
    exact ⟨_, a, ha, rfl⟩
  · rintro ω x ⟨a, ha, rfl⟩ idx hidx
    obtain ⟨a', ha', h2⟩ := key (rng ω)
    rw [ha] at ha'
    cases ha'
    exact h2 idx ((mem_indices _ _).1 hidx)

/-- **C87** (the specification has exactly one solution): there is exactly one uniform distribution on the circle, and on the
sphere. -/
theorem C87_unique : (∃! ν : Measure (Fin 2 → ℝ), UniformOnSphere ν) ∧ ∃! ν : Measure (Fin 3 → ℝ), UniformOnSphere ν := by
  have he : (![0, 0, 1] : Fin 3 → ℝ) ∈ sphere 3 := by simp [sphere, Fin.sum_univ_three]
  refine ⟨⟨_, law_circ, fun ν h => unique_circ h⟩, ⟨_, law_sph, fun ν h => ?_⟩⟩
  rw [unique_rot h law_rot he, unique_rot law_sph law_rot he]

/-! ### C88 -/

/-- **C88**. `rotation3(size)` returns independent matrices, each with the uniform distribution of rotations (Haar measure). -/
theorem C88_rotation3 (h : IdealRng μ rng) (size : Size) :
    ∃ ν, UniformRotation ν ∧ IsSample μ size.toTuple (fun ω x => x = matrixAt (rotation3 (rng ω) size)) ν := by
  refine ⟨_, law_rot, ?_⟩
  refine sample_det h (fun idx (j : Fin 3) => (0, (j : ℕ) :: 0 :: idx)) ?_ rotPt meas_rotPt _ _ (fun ω => ⟨_, rfl⟩) ?_
  · intro i i' j j' e
    simp only [Prod.mk.injEq, List.cons.injEq, true_and, Fin.val_inj] at e
    exact ⟨e.2, e.1⟩
  · rintro ω x rfl idx hidx
    exact rotAt_eq (rng ω) size idx ((mem_indices _ _).1 hidx)

/-- **C88** (the specification has exactly one solution). -/
theorem C88_unique : ∃! ν, UniformRotation ν := ⟨_, law_rot, fun _ h => unique_rotation h law_rot⟩

/-- **C88**: a uniform rotation takes every fixed unit vector to a uniform point of the sphere. -/
theorem C88_vectors {ν : Measure (Matrix (Fin 3) (Fin 3) ℝ)} (h : UniformRotation ν) (e : Fin 3 → ℝ) (he : e ∈ sphere 3) :
    UniformOnSphere (ν.map fun M => M.mulVec e) := by
  rw [← unique_rot law_sph h he]
  exact law_sph

/-! ### C89 -/

/-- **C89** (partial). `insphere(size)` with at least 70 points returns independent points, each uniformly distributed in the unit
ball; it returns with probability 1.  For fewer points this is false (`C89_small_refuted`). -/
theorem C89_insphere_partial (h : IdealRng μ rng) (size : Size) (hn : 70 ≤ size.toTuple.prod) :
    IsSample μ size.toTuple (fun ω x => ∃ fuel a, insphere (rng ω) size fuel = some (.ok a) ∧ x = pointAt 3 a)
      (ProbabilityTheory.cond volume (ball 3)) := by
  refine sample_reject h 3 (fac := 6 / Real.pi) (by rw [le_div_iff₀ Real.pi_pos]; linarith [Real.pi_le_four]) _ _ fun ω x => ?_
  unfold insphere
  simp only [if_neg (not_lt.2 hn), Option.map_eq_some_iff]
  constructor
  · rintro ⟨fuel, a, ⟨p, hp, e⟩, rfl⟩
    cases e
    exact ⟨fuel, p, hp, rfl⟩
  · rintro ⟨fuel, p, hp, rfl⟩
    exact ⟨fuel, _, ⟨p, hp, rfl⟩, rfl⟩

/-- **C89 refuted** for 1 to 69 points: the points are outside the ball with positive probability. -/
theorem C89_small_refuted (h : IdealRng μ rng) (size : Size) (hn : size.toTuple.prod < 70) (h0 : 0 < size.toTuple.prod) :
    ¬ IsSample μ size.toTuple (fun ω x => ∃ fuel a, insphere (rng ω) size fuel = some (.ok a) ∧ x = pointAt 3 a)
      (ProbabilityTheory.cond volume (ball 3)) := by
  classical
  intro hs
  set idx := NdArr.unravel size.toTuple 0
  have hidx : ValidIdx size.toTuple idx := unravel_valid _ _ h0
  have h1 := (hs (fun i => if i = idx then (ball 3)ᶜ else Set.univ)
    fun i => by split_ifs; exacts [(measurableSet_ball 3).compl, MeasurableSet.univ]).2
  rw [Finset.prod_eq_zero ((mem_indices _ _).2 hidx)] at h1
  · let S : Set (Fin 3 → ℝ) := Set.univ.pi fun j => if j = 0 then Set.Iio (1 / 4) else if j = 1 then Set.univ else Set.Ioi (1 / 2)
    have hS : MeasurableSet S := MeasurableSet.univ_pi fun j => by split_ifs; exacts [measurableSet_Iio, MeasurableSet.univ, measurableSet_Ioi]
    have hm := map_Um h (fun j : Fin 3 => (0, (j : ℕ) :: (idx ++ [0]))) (by intro j j' e; simpa [Fin.ext_iff] using e)
    have h2 : μ ((fun ω (j : Fin 3) => rng ω 0 ((j : ℕ) :: (idx ++ [0]))) ⁻¹' S) = 0 := by
      refine measure_mono_null ?_ h1
      intro ω hω
      obtain ⟨a, e1, _, e3⟩ := insphere_small (rng ω) _ 0 size rfl hn
      refine ⟨_, ⟨0, a, e1, rfl⟩, fun i _ => ?_⟩
      split_ifs with hi
      · rw [hi]
        intro hb
        have hb' : ∑ j, pointAt 3 a idx j ^ 2 < 1 := hb
        obtain ⟨f0, f1, f2⟩ := e3 idx hidx
        have q0 : rng ω 0 (0 :: (idx ++ [0])) < 1 / 4 := by simpa using hω 0 trivial
        have q2 : 1 / 2 < rng ω 0 (2 :: (idx ++ [0])) := by simpa using hω 2 trivial
        rw [Fin.sum_univ_three] at hb'
        change a.get (idx ++ [0]) ^ 2 + a.get (idx ++ [1]) ^ 2 + a.get (idx ++ [2]) ^ 2 < 1 at hb'
        rw [f0, f1, f2] at hb'
        set u := rng ω 0 (0 :: (idx ++ [0]))
        set c := rng ω 0 (2 :: (idx ++ [0])) ^ (1 / 3 : ℝ) with hc
        set phi := rng ω 0 (1 :: (idx ++ [0])) * (2 * Real.pi)
        have hsq := Real.sq_sqrt (show (0 : ℝ) ≤ 1 - (2 * u - 1) by linarith)
        have hcs := Real.sin_sq_add_cos_sq phi
        have hnorm : (c * (Real.sqrt (1 - (2 * u - 1)) * Real.cos phi)) ^ 2 + (c * (Real.sqrt (1 - (2 * u - 1)) * Real.sin phi)) ^ 2 +
            (c * (2 * u - 1)) ^ 2 = c ^ 2 * (1 - (2 * u - 1) + (2 * u - 1) ^ 2) := by
          calc _ = c ^ 2 * (Real.sqrt (1 - (2 * u - 1)) ^ 2 * (Real.sin phi ^ 2 + Real.cos phi ^ 2) + (2 * u - 1) ^ 2) := by ring
            _ = _ := by rw [hsq, hcs]; ring
        rw [hnorm] at hb'
        have hc3 : c ^ 3 = rng ω 0 (2 :: (idx ++ [0])) := by
          rw [hc, ← Real.rpow_natCast, ← Real.rpow_mul (by linarith)]; norm_num
        have hc0 : 0 ≤ c := Real.rpow_nonneg (by linarith) _
        have hc78 : 7 / 9 < c := by
          by_contra hle
          push Not at hle
          have : c ^ 3 ≤ (7 / 9) ^ 3 := pow_le_pow_left₀ hc0 hle 3
          rw [hc3] at this
          norm_num at this
          linarith
        have hq : 7 / 4 < 1 - (2 * u - 1) + (2 * u - 1) ^ 2 := by nlinarith
        nlinarith
      · trivial
    rw [← Measure.map_apply (measurable_pi_lambda _ fun j => h.meas _ _) hS, hm, Um, Measure.pi_pi, Fin.prod_univ_three] at h2
    have i1 : Set.Iio (1 / 4 : ℝ) ∩ Set.Ico 0 1 = Set.Ico 0 (1 / 4) := by
      ext x; constructor
      · rintro ⟨a, b, c⟩; exact ⟨b, a⟩
      · rintro ⟨a, b⟩; exact ⟨b, a, by linarith⟩
    have i2 : Set.Ioi (1 / 2 : ℝ) ∩ Set.Ico 0 1 = Set.Ioo (1 / 2) 1 := by
      ext x; constructor
      · rintro ⟨a, b, c⟩; exact ⟨a, c⟩
      · rintro ⟨a, b⟩; exact ⟨a, by linarith, b⟩
    simp [U, Measure.restrict_apply measurableSet_Iio, Measure.restrict_apply measurableSet_Ioi] at h2
    norm_num at i1 i2
    rw [show (4 : ℝ)⁻¹ = 1 / 4 by norm_num, show (2 : ℝ)⁻¹ = 1 / 2 by norm_num, i1, i2] at h2
    norm_num at h2
  · rw [if_pos rfl, ProbabilityTheory.cond_apply (measurableSet_ball 3), Set.inter_compl_self, measure_empty, mul_zero]

/-- The hypotheses are met: there is an ideal generator; and sizes of each kind. -/
example : (∃ (Ω : Type) (_ : MeasurableSpace Ω) (μ : Measure Ω) (rng : Ω → Rng), IdealRng μ rng) ∧
    70 ≤ (Size.tuple [10, 7]).toTuple.prod ∧ 0 < (Size.int 5).toTuple.prod ∧ (Size.int 5).toTuple.prod < 70 := by
  obtain ⟨Ω, m, μ, _, rng, h⟩ := exists_idealRng
  exact ⟨⟨Ω, m, μ, rng, h⟩, by decide, by decide, by decide⟩

end Npplus
