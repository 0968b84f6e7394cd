import Verif.Model.Basic
import Verif.Lemmas.NdArr
import Mathlib.Analysis.SpecialFunctions.Trigonometric.Bounds
import Mathlib.Tactic.Positivity

/-!
# C61, C63: `max_`, `min_`, `atan`
-/

set_option linter.unusedSectionVars false

namespace Npplus
open Spec Basic

section
variable {K : Type} [LinearOrder K]

theorem foldl_sel {f : K → K → K} (hf : ∀ a b, f a b = a ∨ f a b = b) (l : List K) (a : K) :
    l.foldl f a = a ∨ l.foldl f a ∈ l := by
  induction l generalizing a with
  | nil => simp
  | cons b l ih =>
    rw [List.foldl_cons]
    rcases ih (f a b) with h | h
    · rcases hf a b with e | e
      · left; rw [h, e]
      · right; rw [h, e]; simp
    · right; simp [h]

theorem foldl_max_ge (l : List K) (a : K) : a ≤ l.foldl max a ∧ ∀ b ∈ l, b ≤ l.foldl max a := by
  induction l generalizing a with
  | nil => simp
  | cons c l ih =>
    obtain ⟨h1, h2⟩ := ih (max a c)
    exact ⟨(le_max_left _ _).trans h1, fun b hb => by
      rcases List.mem_cons.mp hb with rfl | hb
      · exact (le_max_right _ _).trans h1
      · exact h2 b hb⟩

theorem foldl_min_le (l : List K) (a : K) : l.foldl min a ≤ a ∧ ∀ b ∈ l, l.foldl min a ≤ b := by
  induction l generalizing a with
  | nil => simp
  | cons c l ih =>
    obtain ⟨h1, h2⟩ := ih (min a c)
    exact ⟨h1.trans (min_le_left _ _), fun b hb => by
      rcases List.mem_cons.mp hb with rfl | hb
      · exact h1.trans (min_le_right _ _)
      · exact h2 b hb⟩

variable {a : NdArr K} {args : List (NdArr K)}

/-- **C61** — `max_(a, *args)` of arrays that conform has their common shape, and every element is the greatest
of the corresponding elements of the arguments. -/
theorem C61_max {sh : List ℕ} (h : Common ((a :: args).map (·.shape)) sh) :
    ∃ r, max_ a args = .ok r ∧ r.shape = sh ∧ ∀ idx, ValidIdx sh idx →
      (∀ b ∈ a :: args, bget b idx ≤ r.get idx) ∧ ∃ b ∈ a :: args, r.get idx = bget b idx := by
  obtain ⟨r, hr⟩ := foldlM_zip_ok (f := max) h
  obtain ⟨h1, h2⟩ := foldlM_zip hr
  have e := h1.unique h
  refine ⟨r, hr, e, fun idx hv => ?_⟩
  rw [h2 idx (e ▸ hv)]
  obtain ⟨g1, g2⟩ := foldl_max_ge (args.map (bget · idx)) (bget a idx)
  refine ⟨fun b hb => ?_, ?_⟩
  · rcases List.mem_cons.mp hb with rfl | hb
    · exact g1
    · exact g2 _ (List.mem_map_of_mem hb)
  · rcases foldl_sel (f := max) (fun a b => max_choice a b) (args.map (bget · idx)) (bget a idx) with h | h
    · exact ⟨a, by simp, h⟩
    · obtain ⟨b, hb, e⟩ := List.mem_map.mp h
      exact ⟨b, by simp [hb], e.symm⟩

/-- **C61** — `min_(a, *args)`: the least of the corresponding elements. -/
theorem C61_min {sh : List ℕ} (h : Common ((a :: args).map (·.shape)) sh) :
    ∃ r, min_ a args = .ok r ∧ r.shape = sh ∧ ∀ idx, ValidIdx sh idx →
      (∀ b ∈ a :: args, r.get idx ≤ bget b idx) ∧ ∃ b ∈ a :: args, r.get idx = bget b idx := by
  obtain ⟨r, hr⟩ := foldlM_zip_ok (f := min) h
  obtain ⟨h1, h2⟩ := foldlM_zip hr
  have e := h1.unique h
  refine ⟨r, hr, e, fun idx hv => ?_⟩
  rw [h2 idx (e ▸ hv)]
  obtain ⟨g1, g2⟩ := foldl_min_le (args.map (bget · idx)) (bget a idx)
  refine ⟨fun b hb => ?_, ?_⟩
  · rcases List.mem_cons.mp hb with rfl | hb
    · exact g1
    · exact g2 _ (List.mem_map_of_mem hb)
  · rcases foldl_sel (f := min) (fun a b => min_choice a b) (args.map (bget · idx)) (bget a idx) with h | h
    · exact ⟨a, by simp, h⟩
    · obtain ⟨b, hb, e⟩ := List.mem_map.mp h
      exact ⟨b, by simp [hb], e.symm⟩

/-- **C61** — arguments that do not conform raise ValueError. -/
theorem C61_not_conformable (h : ¬ ∃ sh, Common ((a :: args).map (·.shape)) sh) :
    max_ a args = .error .valueError ∧ min_ a args = .error .valueError := by
  constructor
  · cases hc : max_ a args with
    | error e => rw [foldlM_zip_err hc]
    | ok r => exact absurd ⟨_, (foldlM_zip hc).1⟩ h
  · cases hc : min_ a args with
    | error e => rw [foldlM_zip_err hc]
    | ok r => exact absurd ⟨_, (foldlM_zip hc).1⟩ h

/-- **C61** — the order of the arguments does not matter. -/
theorem C61_order {b : NdArr K} {brgs : List (NdArr K)} (hp : (a :: args).Perm (b :: brgs)) :
    (∀ r, max_ a args = .ok r → ∃ r', max_ b brgs = .ok r' ∧ r.Same r') ∧
    (∀ r, min_ a args = .ok r → ∃ r', min_ b brgs = .ok r' ∧ r.Same r') := by
  constructor
  · intro r hr
    have hc : Common ((a :: args).map (·.shape)) r.shape := (foldlM_zip hr).1
    obtain ⟨r1, g1, e1, v1⟩ := C61_max hc
    rw [hr] at g1; cases g1
    obtain ⟨r2, g2, e2, v2⟩ := C61_max (hc.perm (hp.map _))
    refine ⟨r2, g2, e2.symm, fun idx hv => ?_⟩
    obtain ⟨u1, c, hc1, c1⟩ := v1 idx hv
    obtain ⟨u2, d, hd1, d1⟩ := v2 idx hv
    exact le_antisymm (c1 ▸ u2 _ (hp.mem_iff.mp hc1)) (d1 ▸ u1 _ (hp.mem_iff.mpr hd1))
  · intro r hr
    have hc : Common ((a :: args).map (·.shape)) r.shape := (foldlM_zip hr).1
    obtain ⟨r1, g1, e1, v1⟩ := C61_min hc
    rw [hr] at g1; cases g1
    obtain ⟨r2, g2, e2, v2⟩ := C61_min (hc.perm (hp.map _))
    refine ⟨r2, g2, e2.symm, fun idx hv => ?_⟩
    obtain ⟨u1, c, hc1, c1⟩ := v1 idx hv
    obtain ⟨u2, d, hd1, d1⟩ := v2 idx hv
    exact le_antisymm (d1 ▸ u1 _ (hp.mem_iff.mpr hd1)) (c1 ▸ u2 _ (hp.mem_iff.mp hc1))

theorem group_common {b : NdArr K} {brgs : List (NdArr K)} {r r1 r2 : NdArr K}
    (h : Common ((a :: (args ++ b :: brgs)).map (·.shape)) r.shape) (h1 : Common ((a :: args).map (·.shape)) r1.shape)
    (h2 : Common ((b :: brgs).map (·.shape)) r2.shape) : Common ([r1, r2].map (·.shape)) r.shape := by
  have m1 : ∀ s ∈ (a :: args).map (·.shape), s ∈ (a :: (args ++ b :: brgs)).map (·.shape) := by
    intro s hs; simp only [List.map_cons, List.map_append, List.mem_cons, List.mem_append] at hs ⊢; tauto
  have m2 : ∀ s ∈ (b :: brgs).map (·.shape), s ∈ (a :: (args ++ b :: brgs)).map (·.shape) := by
    intro s hs; simp only [List.map_cons, List.map_append, List.mem_cons, List.mem_append] at hs ⊢; tauto
  have mm : ∀ s ∈ (a :: (args ++ b :: brgs)).map (·.shape), s ∈ (a :: args).map (·.shape) ∨ s ∈ (b :: brgs).map (·.shape) := by
    intro s hs; simp only [List.map_cons, List.map_append, List.mem_cons, List.mem_append] at hs ⊢; tauto
  refine ⟨?_, ?_, ?_, ?_⟩
  · intro s hs
    simp only [List.map_cons, List.map_nil, List.mem_cons, List.not_mem_nil, or_false] at hs
    rcases hs with rfl | rfl
    · obtain ⟨t, ht, e⟩ := h1.maxlen; rw [← e]; exact h.len t (m1 t ht)
    · obtain ⟨t, ht, e⟩ := h2.maxlen; rw [← e]; exact h.len t (m2 t ht)
  · obtain ⟨t, ht, e⟩ := h.maxlen
    rcases mm t ht with ht | ht
    · refine ⟨r1.shape, by simp, ?_⟩
      obtain ⟨u, hu, e'⟩ := h1.maxlen
      have := h.len u (m1 u hu); have := h1.len t ht; omega
    · refine ⟨r2.shape, by simp, ?_⟩
      obtain ⟨u, hu, e'⟩ := h2.maxlen
      have := h.len u (m2 u hu); have := h2.len t ht; omega
  · intro s hs k
    simp only [List.map_cons, List.map_nil, List.mem_cons, List.not_mem_nil, or_false] at hs
    rcases hs with rfl | rfl
    · obtain ⟨t, ht, e⟩ := h1.hit k; rw [← e]; exact h.fits t (m1 t ht) k
    · obtain ⟨t, ht, e⟩ := h2.hit k; rw [← e]; exact h.fits t (m2 t ht) k
  · intro k
    obtain ⟨t, ht, e⟩ := h.hit k
    rcases mm t ht with ht | ht
    · refine ⟨r1.shape, by simp, ?_⟩
      obtain ⟨u, hu, e'⟩ := h1.hit k
      have := h.fits u (m1 u hu) k
      have := h1.fits t ht k; omega
    · refine ⟨r2.shape, by simp, ?_⟩
      obtain ⟨u, hu, e'⟩ := h2.hit k
      have := h.fits u (m2 u hu) k
      have := h2.fits t ht k; omega

/-- **C61** — nor does their grouping: `max_(a, ..., b, ...) = max_(max_(a, ...), max_(b, ...))`. -/
theorem C61_grouping {b : NdArr K} {brgs : List (NdArr K)} {r : NdArr K}
    (h : max_ a (args ++ b :: brgs) = .ok r) :
    ∃ r1 r2 r', max_ a args = .ok r1 ∧ max_ b brgs = .ok r2 ∧ max_ r1 [r2] = .ok r' ∧ r.Same r' := by
  have hc : Common ((a :: (args ++ b :: brgs)).map (·.shape)) r.shape := (foldlM_zip h).1
  obtain ⟨sh1, hc1⟩ := hc.sub (tt := (a :: args).map (·.shape)) (by simp) (by
    intro s hs; simp only [List.map_cons, List.map_append, List.mem_cons, List.mem_append] at hs ⊢; tauto)
  obtain ⟨sh2, hc2⟩ := hc.sub (tt := (b :: brgs).map (·.shape)) (by simp) (by
    intro s hs; simp only [List.map_cons, List.map_append, List.mem_cons, List.mem_append] at hs ⊢; tauto)
  obtain ⟨r1, g1, rfl, v1⟩ := C61_max hc1
  obtain ⟨r2, g2, rfl, v2⟩ := C61_max hc2
  have hc3 := group_common hc hc1 hc2
  obtain ⟨r', g3, e3, v3⟩ := C61_max hc3
  refine ⟨r1, r2, r', g1, g2, g3, e3.symm, fun idx hv => ?_⟩
  obtain ⟨r0, g0, -, v0⟩ := C61_max hc
  rw [h] at g0; cases g0
  obtain ⟨u0, c0, hm0, c0e⟩ := v0 idx hv
  obtain ⟨u3, c3, hm3, c3e⟩ := v3 idx hv
  have w1 := common_valid hc3 (s := r1.shape) (by simp) hv
  have w2 := common_valid hc3 (s := r2.shape) (by simp) hv
  have k1 : ∀ c ∈ a :: args, bget c (bcIdx r1.shape idx) = bget c idx := fun c hcm =>
    NdArr.bget_comp (hc1.len _ (List.mem_map_of_mem hcm)) (by rw [hv.1]; exact hc3.len _ (by simp)) (hc1.fits _ (List.mem_map_of_mem hcm))
  have k2 : ∀ c ∈ b :: brgs, bget c (bcIdx r2.shape idx) = bget c idx := fun c hcm =>
    NdArr.bget_comp (hc2.len _ (List.mem_map_of_mem hcm)) (by rw [hv.1]; exact hc3.len _ (by simp)) (hc2.fits _ (List.mem_map_of_mem hcm))
  obtain ⟨u1, c1, hm1, c1e⟩ := v1 _ w1
  obtain ⟨u2, c2, hm2, c2e⟩ := v2 _ w2
  apply le_antisymm
  · rw [c0e]
    have : c0 ∈ a :: args ∨ c0 ∈ b :: brgs := by
      simp only [List.mem_cons, List.mem_append] at hm0 ⊢; tauto
    rcases this with hm | hm
    · have := u1 c0 hm
      rw [k1 _ hm] at this
      exact this.trans (u3 r1 (by simp))
    · have := u2 c0 hm
      rw [k2 _ hm] at this
      exact this.trans (u3 r2 (by simp))
  · rw [c3e]
    simp only [List.mem_cons, List.not_mem_nil, or_false] at hm3
    rcases hm3 with rfl | rfl
    · show c3.get _ ≤ _
      rw [c1e, k1 _ hm1]
      exact u0 _ (by simp only [List.mem_cons, List.mem_append] at hm1 ⊢; tauto)
    · show c3.get _ ≤ _
      rw [c2e, k2 _ hm2]
      exact u0 _ (by simp only [List.mem_cons, List.mem_append] at hm2 ⊢; tauto)

end

/-! ### `atan` -/

/-- `t` is an angle of the point `(b, a)`. -/
def IsAngle (a b t : ℝ) : Prop := b = √(a ^ 2 + b ^ 2) * Real.cos t ∧ a = √(a ^ 2 + b ^ 2) * Real.sin t

theorem arctan2_angle (a b : ℝ) : IsAngle a b (arctan2 a b) := by
  have h := Complex.norm_mul_exp_arg_mul_I (⟨b, a⟩ : ℂ)
  have hn : ‖(⟨b, a⟩ : ℂ)‖ = √(a ^ 2 + b ^ 2) := by
    rw [Complex.norm_def, Complex.normSq_mk]; congr 1; ring
  have hre := congrArg Complex.re h
  have him := congrArg Complex.im h
  rw [Complex.exp_mul_I] at hre him
  simp only [← Complex.ofReal_cos, ← Complex.ofReal_sin, Complex.mul_re, Complex.mul_im, Complex.add_re, Complex.add_im, Complex.ofReal_re,
    Complex.ofReal_im, Complex.I_re, Complex.I_im, hn] at hre him
  unfold IsAngle arctan2
  constructor
  · linarith
  · linarith

theorem IsAngle.add_int {a b t : ℝ} (h : IsAngle a b t) (n : ℤ) : IsAngle a b (t + n * (2 * Real.pi)) := by
  unfold IsAngle at *
  rw [Real.cos_add_int_mul_two_pi, Real.sin_add_int_mul_two_pi]
  exact h

theorem rmod_bounds (x : ℝ) {m : ℝ} (hm : 0 < m) : 0 ≤ rmod x m ∧ rmod x m < m := by
  unfold rmod
  have h1 := Int.floor_le (x / m)
  have h2 := Int.lt_floor_add_one (x / m)
  have e : x / m * m = x := div_mul_cancel₀ _ hm.ne'
  constructor
  · nlinarith
  · nlinarith

/-- **C63** — `atan(a, b, branch=c)`: every element is an angle of the point `(b, a)` (broadcast), at least the
branch cut and less than `2π` above it. -/
theorem C63_branch {a b c : NdArr ℝ} {sh : List ℕ} (h : Common [a.shape, b.shape, c.shape] sh) :
    ∃ r, atan a (some b) (some c) = .ok r ∧ r.shape = sh ∧ ∀ idx, ValidIdx sh idx →
      IsAngle (bget a idx) (bget b idx) (r.get idx) ∧ bget c idx ≤ r.get idx ∧ r.get idx < bget c idx + 2 * Real.pi := by
  obtain ⟨s1, -, h1, h2⟩ := h.split
  have hz1 := NdArr.zip_ok_of (f := arctan2) h1
  have hz2 := NdArr.zip_ok_of (a := ⟨s1, fun idx => arctan2 (bget a idx) (bget b idx)⟩) (b := c)
    (f := fun t c => rmod (t - c) (2 * Real.pi)) h2
  have h3 : Common [sh, c.shape] sh := by
    refine ⟨?_, ⟨sh, by simp, rfl⟩, ?_, fun k => ⟨sh, by simp, rfl⟩⟩
    · simpa using h2.len c.shape (by simp)
    · intro s hs k
      simp only [List.mem_cons, List.not_mem_nil, or_false] at hs
      rcases hs with rfl | rfl
      · exact .inl rfl
      · exact h2.fits _ (by simp) k
  have hz3 := NdArr.zip_ok_of (a := ⟨sh, fun idx => rmod (bget (⟨s1, fun idx => arctan2 (bget a idx) (bget b idx)⟩ : NdArr ℝ) idx - bget c idx)
    (2 * Real.pi)⟩) (b := c) (f := (· + ·)) h3
  have hat : ∀ r, NdArr.zip (· + ·) (⟨sh, fun idx => rmod (bget (⟨s1, fun idx => arctan2 (bget a idx) (bget b idx)⟩ : NdArr ℝ) idx - bget c idx)
      (2 * Real.pi)⟩ : NdArr ℝ) c = r → atan a (some b) (some c) = r := by
    rintro r rfl
    unfold atan
    simp only [bind, Except.bind]
    rw [hz1]; simp only
    rw [hz2]
  refine ⟨_, hat _ hz3, rfl, ?_⟩
  · intro idx hv
    have e : bget (⟨sh, fun idx => rmod (bget (⟨s1, fun idx => arctan2 (bget a idx) (bget b idx)⟩ : NdArr ℝ) idx - bget c idx)
        (2 * Real.pi)⟩ : NdArr ℝ) idx = rmod (arctan2 (bget a idx) (bget b idx) - bget c idx) (2 * Real.pi) := by
      rw [bget_self (a := ⟨sh, _⟩) hv]
      show rmod (arctan2 (bget a (bcIdx s1 idx)) (bget b (bcIdx s1 idx)) - bget c idx) _ = _
      have hl : s1.length ≤ idx.length := by rw [hv.1]; exact h2.len _ (by simp)
      rw [NdArr.bget_comp (h1.len _ (by simp)) hl (h1.fits _ (by simp)), NdArr.bget_comp (h1.len _ (by simp)) hl (h1.fits _ (by simp))]
    simp only [e]
    obtain ⟨b1, b2⟩ := rmod_bounds (arctan2 (bget a idx) (bget b idx) - bget c idx) Real.two_pi_pos
    refine ⟨?_, by linarith, by linarith⟩
    have := (arctan2_angle (bget a idx) (bget b idx)).add_int (-⌊(arctan2 (bget a idx) (bget b idx) - bget c idx) / (2 * Real.pi)⌋)
    convert this using 1
    unfold rmod; push_cast; ring

/-- **C63** — without `branch` the principal value, `-π < angle ≤ π`. -/
theorem C63_principal {a b : NdArr ℝ} {sh : List ℕ} (h : Common [a.shape, b.shape] sh) :
    ∃ r, atan a (some b) = .ok r ∧ r.shape = sh ∧ ∀ idx, ValidIdx sh idx →
      IsAngle (bget a idx) (bget b idx) (r.get idx) ∧ -Real.pi < r.get idx ∧ r.get idx ≤ Real.pi := by
  have hz1 := NdArr.zip_ok_of (f := arctan2) h
  have hat : atan a (some b) = .ok ⟨sh, fun idx => arctan2 (bget a idx) (bget b idx)⟩ := by
    unfold atan
    simp only [bind, Except.bind, hz1]
    rfl
  refine ⟨_, hat, rfl, ?_⟩
  · intro idx _
    exact ⟨arctan2_angle _ _, Complex.neg_pi_lt_arg _, Complex.arg_le_pi _⟩

/-- **C63** — one argument: the angle in `(-π/2, π/2)` with that tangent; `branch` is ignored. -/
theorem C63_one {a : NdArr ℝ} (branch : Option (NdArr ℝ)) : ∃ r, atan a none branch = .ok r ∧ r.shape = a.shape ∧
    ∀ idx, Real.tan (r.get idx) = a.get idx ∧ -(Real.pi / 2) < r.get idx ∧ r.get idx < Real.pi / 2 :=
  ⟨_, rfl, rfl, fun _ => ⟨Real.tan_arctan _, Real.neg_pi_div_two_lt_arctan _, Real.arctan_lt_pi_div_two _⟩⟩

/-- Two angles of a point other than the origin in the same half open turn are equal, so C63 determines the result. -/
theorem C63_unique {a b c t t' : ℝ} (h0 : a ≠ 0 ∨ b ≠ 0) (h : IsAngle a b t) (h' : IsAngle a b t')
    (h1 : c ≤ t) (h2 : t < c + 2 * Real.pi) (h3 : c ≤ t') (h4 : t' < c + 2 * Real.pi) : t = t' := by
  have hr : 0 < √(a ^ 2 + b ^ 2) := by
    apply Real.sqrt_pos.mpr
    rcases h0 with h | h <;> positivity
  have hc : Real.cos t = Real.cos t' := mul_left_cancel₀ hr.ne' (h.1.symm.trans h'.1)
  have hs : Real.sin t = Real.sin t' := mul_left_cancel₀ hr.ne' (h.2.symm.trans h'.2)
  have : Real.cos (t - t') = 1 := by
    rw [Real.cos_sub, hc, hs, ← sq, ← sq, Real.cos_sq_add_sin_sq]
  have := (Real.cos_eq_one_iff_of_lt_of_lt (by linarith) (by linarith)).mp this
  linarith

/-- The docstring's example: `atan(0, -1)` is `π`, `atan(0, -1, branch=-π)` is `-π`. -/
example : (atan ⟨[], fun _ => 0⟩ (some ⟨[], fun _ => -1⟩)).map (·.get []) = .ok Real.pi ∧
    (atan ⟨[], fun _ => 0⟩ (some ⟨[], fun _ => -1⟩) (some ⟨[], fun _ => -Real.pi⟩)).map (·.get []) = .ok (-Real.pi) := by
  have e : Basic.arctan2 0 (-1) = Real.pi := by
    unfold Basic.arctan2
    have : (⟨-1, 0⟩ : ℂ) = -1 := by apply Complex.ext <;> simp
    rw [this, Complex.arg_neg_one]
  constructor
  · show Except.ok (Basic.arctan2 0 (-1)) = _
    rw [e]
  · show Except.ok (Basic.rmod (Basic.arctan2 0 (-1) - -Real.pi) (2 * Real.pi) + -Real.pi) = _
    rw [e]
    unfold Basic.rmod
    have : (Real.pi - -Real.pi) / (2 * Real.pi) = 1 := by
      rw [div_eq_one_iff_eq (by positivity)]; ring
    rw [this]
    simp
    ring

/-- A vector against a column: the shapes conform and the greatest elements are taken. -/
example : Common ([(⟨[3], fun i => (i.getD 0 0 : ℤ)⟩ : NdArr ℤ), ⟨[2, 1], fun i => 2 * (i.getD 0 0 : ℤ)⟩].map (·.shape)) [2, 3] := by
  refine bcastShape_ok ?_
  decide

example : (max_ (⟨[3], fun i => (i.getD 0 0 : ℤ)⟩ : NdArr ℤ) [⟨[2, 1], fun i => 2 * (i.getD 0 0 : ℤ)⟩, ⟨[], fun _ => 1⟩]).map
    (fun r => (r.shape, [r.get [0, 0], r.get [0, 2], r.get [1, 1]])) = .ok ([2, 3], [1, 2, 2]) := by decide

end Npplus
