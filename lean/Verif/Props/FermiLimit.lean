import Verif.Props.FermiAccHi
import Verif.Lemmas.FermiInv

/-!
# C127: shape of the Fermi-Dirac functions: classical limit and monotonicity
-/

set_option linter.unusedSectionVars false
namespace Npplus
open Npplus.Spec MeasureTheory Set Fermi FdInv

/-- upper bound by the classical (Boltzmann) limit -/
theorem fermiDirac_le {s : ℝ} (hs : -1 < s) (x : ℝ) : fermiDirac s x ≤ Real.Gamma (s + 1) * Real.exp x := by
  rw [mul_comm, Real.Gamma_eq_integral (by linarith), ← integral_const_mul]
  have hg := (Real.GammaIntegral_convergent (s := s + 1) (by linarith)).const_mul (Real.exp x)
  refine setIntegral_mono_on (int_F hs) hg measurableSet_Ioi fun t ht => ?_
  have ht : 0 < t := ht
  have hp := Real.rpow_pos_of_pos ht s
  rw [add_sub_cancel_right, ← mul_assoc, ← Real.exp_add, div_le_iff₀ (by positivity)]
  have e : Real.exp (x + -t) * t ^ s * (Real.exp (t - x) + 1) = t ^ s * (Real.exp (x + -t) * Real.exp (t - x)) + Real.exp (x + -t) * t ^ s := by ring
  rw [e, ← Real.exp_add]
  have : x + -t + (t - x) = 0 := by ring
  rw [this, Real.exp_zero, mul_one]
  have := mul_pos (Real.exp_pos (x + -t)) hp
  linarith

/-- lower bound by the classical limit -/
theorem fermiDirac_ge {s : ℝ} (hs : -1 < s) (x : ℝ) : Real.Gamma (s + 1) * Real.exp x * (1 - Real.exp x) ≤ fermiDirac s x := by
  have e0 : Real.Gamma (s + 1) * Real.exp x * (1 - Real.exp x) = Real.exp x * (1 - Real.exp x) * Real.Gamma (s + 1) := by ring
  rw [e0, Real.Gamma_eq_integral (by linarith), ← integral_const_mul]
  have hg := (Real.GammaIntegral_convergent (s := s + 1) (by linarith)).const_mul (Real.exp x * (1 - Real.exp x))
  refine setIntegral_mono_on hg (int_F hs) measurableSet_Ioi fun t ht => ?_
  have ht : 0 < t := ht
  have hp := Real.rpow_pos_of_pos ht s
  rw [add_sub_cancel_right, le_div_iff₀ (by positivity)]
  have e1 : Real.exp (t - x) * (Real.exp x * Real.exp (-t)) = 1 := by
    rw [← Real.exp_add, ← Real.exp_add, ← Real.exp_zero]; congr 1; ring
  have e2 : Real.exp (-t) ≤ 1 := Real.exp_le_one_iff.2 (by linarith)
  have hx := Real.exp_pos x
  have ht0 := Real.exp_pos (-t)
  have key : Real.exp x * (1 - Real.exp x) * Real.exp (-t) * (Real.exp (t - x) + 1) ≤ 1 := by
    have : Real.exp x * (1 - Real.exp x) * Real.exp (-t) * (Real.exp (t - x) + 1) =
        (1 - Real.exp x) * (1 + Real.exp x * Real.exp (-t)) := by
      have : Real.exp x * (1 - Real.exp x) * Real.exp (-t) * (Real.exp (t - x) + 1) =
        (1 - Real.exp x) * (Real.exp (t - x) * (Real.exp x * Real.exp (-t)) + Real.exp x * Real.exp (-t)) := by ring
      rw [this, e1]
    rw [this]
    nlinarith [mul_pos hx ht0, mul_nonneg hx.le (sub_nonneg.2 e2), mul_pos (mul_pos hx hx) ht0]
  calc Real.exp x * (1 - Real.exp x) * (Real.exp (-t) * t ^ s) * (Real.exp (t - x) + 1) =
      t ^ s * (Real.exp x * (1 - Real.exp x) * Real.exp (-t) * (Real.exp (t - x) + 1)) := by ring
    _ ≤ t ^ s * 1 := mul_le_mul_of_nonneg_left key hp.le
    _ = t ^ s := mul_one _

/-- `F` (accurate to `eps`) follows the classical limit: for every element `x`, `F(x)` is between
`Gamma(j+1) exp(x) (1 - exp(x))` and `Gamma(j+1) exp(x)` to a relative accuracy of `eps`. -/
def Classical (F : NdArr ℝ → NdArr ℝ) (j eps : ℝ) : Prop :=
  ∀ (x : NdArr ℝ) (idx : List ℕ), ValidIdx x.shape idx →
    (F x).get idx ≤ (1 + eps) * (Real.Gamma (j + 1) * Real.exp (x.get idx)) ∧
    (1 - eps) * (Real.Gamma (j + 1) * Real.exp (x.get idx) * (1 - Real.exp (x.get idx))) ≤ (F x).get idx

/-- `F` (accurate to `eps`) grows with `x`, and at most by the factor `exp(y - x)` from `x` to `y`, both to that accuracy. -/
def Growth (F : NdArr ℝ → NdArr ℝ) (eps : ℝ) : Prop :=
  ∀ (x : NdArr ℝ) (i k : List ℕ), ValidIdx x.shape i → ValidIdx x.shape k → x.get i ≤ x.get k →
    (1 - eps) * (F x).get i ≤ (1 + eps) * (F x).get k ∧
    (1 - eps) * (F x).get k ≤ (1 + eps) * (Real.exp (x.get k - x.get i) * (F x).get i)

theorem classical_of {F : NdArr ℝ → NdArr ℝ} {j eps : ℝ} (h : Accurate F j eps) (hj : -1 < j) (h0 : 0 ≤ eps) (h1 : eps < 1) :
    Classical F j eps := by
  intro x idx hi
  have ha := abs_le.1 ((h x).2 idx hi)
  have u := fermiDirac_le hj (x.get idx)
  have l := fermiDirac_ge hj (x.get idx)
  constructor
  · have := mul_le_mul_of_nonneg_left u (by linarith : 0 ≤ 1 + eps)
    nlinarith [ha.2]
  · have := mul_le_mul_of_nonneg_left l (by linarith : 0 ≤ 1 - eps)
    nlinarith [ha.1]

theorem growth_of {F : NdArr ℝ → NdArr ℝ} {j eps : ℝ} (h : Accurate F j eps) (hj : -1 < j) (h0 : 0 ≤ eps) (h1 : eps < 1) :
    Growth F eps := by
  intro x i k hi hk hx
  have ai := abs_le.1 ((h x).2 i hi)
  have ak := abs_le.1 ((h x).2 k hk)
  obtain ⟨m1, m2⟩ := growth hj hx
  have p1 : 0 ≤ 1 - eps := by linarith
  have p2 : 0 ≤ 1 + eps := by linarith
  set E := Real.exp (x.get k - x.get i)
  have hE : 0 < E := Real.exp_pos _
  have ui : (F x).get i ≤ (1 + eps) * fermiDirac j (x.get i) := by linarith [ai.2]
  have li : (1 - eps) * fermiDirac j (x.get i) ≤ (F x).get i := by linarith [ai.1]
  have uk : (F x).get k ≤ (1 + eps) * fermiDirac j (x.get k) := by linarith [ak.2]
  have lk : (1 - eps) * fermiDirac j (x.get k) ≤ (F x).get k := by linarith [ak.1]
  constructor
  · calc (1 - eps) * (F x).get i ≤ (1 - eps) * ((1 + eps) * fermiDirac j (x.get i)) := mul_le_mul_of_nonneg_left ui p1
      _ ≤ (1 - eps) * ((1 + eps) * fermiDirac j (x.get k)) := mul_le_mul_of_nonneg_left (mul_le_mul_of_nonneg_left m1 p2) p1
      _ = (1 + eps) * ((1 - eps) * fermiDirac j (x.get k)) := by ring
      _ ≤ _ := mul_le_mul_of_nonneg_left lk p2
  · calc (1 - eps) * (F x).get k ≤ (1 - eps) * ((1 + eps) * fermiDirac j (x.get k)) := mul_le_mul_of_nonneg_left uk p1
      _ ≤ (1 - eps) * ((1 + eps) * (E * fermiDirac j (x.get i))) := mul_le_mul_of_nonneg_left (mul_le_mul_of_nonneg_left m2 p2) p1
      _ = (1 + eps) * (E * ((1 - eps) * fermiDirac j (x.get i))) := by ring
      _ ≤ _ := mul_le_mul_of_nonneg_left (mul_le_mul_of_nonneg_left li hE.le) p2

/-- C127.  `fdm12`, `fd12`, `fd32`, `fd52` follow the classical limit `Gamma(j+1) exp(x)` for every `x`, to the relative
accuracy of C79. -/
theorem C127_classical : Classical fdm12 (-1 / 2) (3 / 10 ^ 12) ∧ Classical fd12 (1 / 2) (1 / 10 ^ 12) ∧
    Classical fd32 (3 / 2) (1 / 10 ^ 12) ∧ Classical fd52 (5 / 2) (1 / 10 ^ 12) := by
  obtain ⟨a1, a2, a3, a4⟩ := C79_fd_accuracy
  exact ⟨classical_of a1 (by norm_num) (by norm_num) (by norm_num), classical_of a2 (by norm_num) (by norm_num) (by norm_num),
    classical_of a3 (by norm_num) (by norm_num) (by norm_num), classical_of a4 (by norm_num) (by norm_num) (by norm_num)⟩

/-- C127.  They grow with `x` but not faster than `exp(x)`, to the relative accuracy of C79. -/
theorem C127_growth : Growth fdm12 (3 / 10 ^ 12) ∧ Growth fd12 (1 / 10 ^ 12) ∧ Growth fd32 (1 / 10 ^ 12) ∧ Growth fd52 (1 / 10 ^ 12) := by
  obtain ⟨a1, a2, a3, a4⟩ := C79_fd_accuracy
  exact ⟨growth_of a1 (by norm_num) (by norm_num) (by norm_num), growth_of a2 (by norm_num) (by norm_num) (by norm_num),
    growth_of a3 (by norm_num) (by norm_num) (by norm_num), growth_of a4 (by norm_num) (by norm_num) (by norm_num)⟩

/-- Two elements, -30 and 5. -/
example : (fd12 ⟨[2], fun i => if i = [0] then -30 else 5⟩).get [0] ≤ (1 + 1 / 10 ^ 12) * (Real.Gamma (1 / 2 + 1) * Real.exp (-30)) :=
  (C127_classical.2.1 ⟨[2], fun i => if i = [0] then -30 else 5⟩ [0] (by simp [ValidIdx])).1

example : (1 - 1 / 10 ^ 12) * (fd12 ⟨[2], fun i => if i = [0] then -30 else 5⟩).get [0] ≤
    (1 + 1 / 10 ^ 12) * (fd12 ⟨[2], fun i => if i = [0] then -30 else 5⟩).get [1] :=
  (C127_growth.2.1 ⟨[2], fun i => if i = [0] then -30 else 5⟩ [0] [1] (by simp [ValidIdx]) (by simp [ValidIdx]) (by norm_num)).1

end Npplus
