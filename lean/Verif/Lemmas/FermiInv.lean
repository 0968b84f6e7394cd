import Verif.Lemmas.FermiData
import Verif.Lemmas.RatPoly

/-!
# Growth of the Fermi-Dirac integrals, `exp` on `[0, 2.05]`, and certificates for the inverse functions
-/

set_option linter.unusedSectionVars false
namespace Npplus
open MeasureTheory Set Npplus.Spec

namespace FdInv
open Cheb FdTail

theorem int_F {s x : ℝ} (hs : -1 < s) : IntegrableOn (fun t : ℝ => t ^ s / (Real.exp (t - x) + 1)) (Ioi 0) := by
  have hG := (Real.GammaIntegral_convergent (s := s + 1) (by linarith)).const_mul (Real.exp x)
  refine hG.mono' ?_ ?_
  · apply Measurable.aestronglyMeasurable
    fun_prop
  · filter_upwards [ae_restrict_mem measurableSet_Ioi] with t ht
    have ht' : 0 < t := ht
    have hr : 0 ≤ t ^ s := Real.rpow_nonneg ht'.le _
    have hp := Real.exp_pos (t - x)
    rw [Real.norm_of_nonneg (by positivity)]
    calc t ^ s / (Real.exp (t - x) + 1) ≤ t ^ s / Real.exp (t - x) := by
          apply div_le_div_of_nonneg_left hr hp; linarith
      _ = Real.exp x * (Real.exp (-t) * t ^ (s + 1 - 1)) := by
        rw [div_eq_mul_inv, ← Real.exp_neg, show -(t - x) = x + -t by ring, Real.exp_add, add_sub_cancel_right]; ring

theorem F_nonneg (j x : ℝ) : 0 ≤ fermiDirac j x :=
  setIntegral_nonneg measurableSet_Ioi fun t (ht : 0 < t) => by positivity

/-- The integral increases, by at most the factor `exp` of the increase of its argument. -/
theorem growth {j x x' : ℝ} (hj : -1 < j) (h : x ≤ x') : fermiDirac j x ≤ fermiDirac j x' ∧
    fermiDirac j x' ≤ Real.exp (x' - x) * fermiDirac j x := by
  constructor
  · refine setIntegral_mono_on (int_F hj) (int_F hj) measurableSet_Ioi fun t (ht : 0 < t) => ?_
    have hr : 0 ≤ t ^ j := Real.rpow_nonneg ht.le _
    apply div_le_div_of_nonneg_left hr (by positivity)
    have := Real.exp_le_exp.2 (by linarith : t - x' ≤ t - x)
    linarith
  · unfold fermiDirac
    rw [← integral_const_mul]
    refine setIntegral_mono_on (int_F hj) ((int_F hj).const_mul _) measurableSet_Ioi fun t (ht : 0 < t) => ?_
    have hr : 0 ≤ t ^ j := Real.rpow_nonneg ht.le _
    have h1 : 1 ≤ Real.exp (x' - x) := Real.one_le_exp (by linarith)
    have e : Real.exp (t - x) = Real.exp (x' - x) * Real.exp (t - x') := by rw [← Real.exp_add]; congr 1; ring
    have hp := Real.exp_pos (t - x')
    rw [mul_div_assoc', div_le_div_iff₀ (by positivity) (by positivity), e]
    calc t ^ j * (Real.exp (x' - x) * Real.exp (t - x') + 1) ≤ t ^ j * (Real.exp (x' - x) * (Real.exp (t - x') + 1)) := by
          apply mul_le_mul_of_nonneg_left _ hr; linarith
      _ = _ := by ring

theorem near {j x x' κ : ℝ} (hj : -1 < j) (h1 : 1 - κ ≤ Real.exp (x' - x)) (h2 : Real.exp (x' - x) ≤ 1 + κ) :
    (1 - κ) * fermiDirac j x ≤ fermiDirac j x' ∧ fermiDirac j x' ≤ (1 + κ) * fermiDirac j x := by
  have p := F_nonneg j x
  have p' := F_nonneg j x'
  rcases le_total x x' with h | h
  · obtain ⟨a, b⟩ := growth hj h
    have e1 : 1 ≤ Real.exp (x' - x) := Real.one_le_exp (by linarith)
    constructor
    · nlinarith
    · exact b.trans (mul_le_mul_of_nonneg_right h2 p)
  · obtain ⟨a, b⟩ := growth hj h
    have e1 : Real.exp (x' - x) ≤ 1 := Real.exp_le_one_iff.2 (by linarith)
    have e2 : Real.exp (x' - x) * Real.exp (x - x') = 1 := by rw [← Real.exp_add]; simp
    have e3 := Real.exp_pos (x' - x)
    constructor
    · calc (1 - κ) * fermiDirac j x ≤ Real.exp (x' - x) * fermiDirac j x := mul_le_mul_of_nonneg_right h1 p
        _ ≤ Real.exp (x' - x) * (Real.exp (x - x') * fermiDirac j x') := mul_le_mul_of_nonneg_left b e3.le
        _ = _ := by rw [← mul_assoc, e2, one_mul]
    · have : 0 ≤ κ := by linarith
      nlinarith

/-! ### several certificates on one subdivision -/

def posAll (M : ℕ) (d : ℤ) (a : ℤ) (pts : List ℤ) : List (List ℚ) → Bool
  | [] => true
  | c :: L => posFl M d c a pts && posAll M d a pts L

theorem posAll_spec {M : ℕ} {d a : ℤ} {pts : List ℤ} {L : List (List ℚ)} (h : posAll M d a pts L = true) (hd : 0 < d) (ha : 0 ≤ a)
    {x : ℝ} (h1 : (a : ℝ) / d ≤ x) (h2 : x < (pts.getLastD a : ℤ) / d) : ∀ c ∈ L, 0 < evQ c x := by
  induction L with
  | nil => simp
  | cons c L ih =>
    simp only [posAll, Bool.and_eq_true] at h
    intro c' hc'
    rcases List.mem_cons.1 hc' with rfl | hc'
    · exact posFl_spec hd h.1 ha h1 h2
    · exact ih h.2 c' hc'

def powQ (a : List ℚ) : ℕ → List ℚ
  | 0 => [1]
  | k + 1 => mulQ (powQ a k) a

theorem evQ_pow (a : List ℚ) (u : ℝ) : ∀ k : ℕ, evQ (powQ a k) u = evQ a u ^ k
  | 0 => by simp [powQ, evQ]
  | k + 1 => by rw [powQ, evQ_mul, evQ_pow a u k, pow_succ]

theorem evQ_pad (c : List ℚ) (u : ℝ) (k : ℕ) : evQ (c ++ List.replicate k 0) u = evQ c u := by
  induction c with
  | nil =>
    induction k with
    | zero => rfl
    | succ n ih => rw [List.nil_append] at ih ⊢; rw [List.replicate_succ, evQ, evQ, ih]; simp [evQ]
  | cons a c ih => rw [List.cons_append, evQ, ih, evQ]

/-- composition -/
theorem evQ_comp (A c : List ℚ) (u : ℝ) : evQ (subst A [1] c).1 u = evQ c (evQ A u) := by
  have := (subst_spec A [1] c u (evQ A u) (by simp [evQ])).2
  simpa [evQ] using this

/-- substitution of a fraction -/
theorem evQ_frac {A B c : List ℚ} {u : ℝ} (hB : evQ B u ≠ 0) {n : ℕ} (hc : c.length = n + 1) :
    evQ (subst A B c).1 u = evQ c (evQ A u / evQ B u) * evQ B u ^ n := by
  have := (subst_spec A B c u (evQ A u / evQ B u) (by field_simp)).2
  rw [hc, pow_succ, ← mul_assoc] at this
  exact mul_right_cancel₀ hB this

/-! ### elementary -/

/-- from squares to relative errors -/
theorem of_squares {F y Z e ε : ℝ} (hF : 0 ≤ F) (hy : 0 ≤ y) (he : 0 ≤ e) (he1 : e ≤ 1) (hε : 0 ≤ ε) (hε1 : ε ≤ 1)
    (h1 : (1 - e) ^ 2 * Z ≤ F ^ 2) (h2 : F ^ 2 ≤ (1 + e) ^ 2 * Z) (h3 : (1 - ε) ^ 2 * y ^ 2 ≤ Z) (h4 : Z ≤ (1 + ε) ^ 2 * y ^ 2) :
    |F - y| ≤ (ε + 2 * e) * y := by
  have a : F ≤ (1 + e) * (1 + ε) * y := by
    apply abs_le_of_sq_le_sq' _ (by positivity) |>.2
    calc F ^ 2 ≤ _ := h2
      _ ≤ (1 + e) ^ 2 * ((1 + ε) ^ 2 * y ^ 2) := mul_le_mul_of_nonneg_left h4 (by positivity)
      _ = _ := by ring
  have b : (1 - e) * (1 - ε) * y ≤ F := by
    apply abs_le_of_sq_le_sq' _ hF |>.2
    calc ((1 - e) * (1 - ε) * y) ^ 2 = (1 - e) ^ 2 * ((1 - ε) ^ 2 * y ^ 2) := by ring
      _ ≤ (1 - e) ^ 2 * Z := mul_le_mul_of_nonneg_left h3 (by positivity)
      _ ≤ _ := h1
  have c : e * ε * y ≤ e * y := by
    apply mul_le_mul_of_nonneg_right _ hy; nlinarith
  have c0 : 0 ≤ e * ε * y := by positivity
  have c1 : 0 ≤ e * y := by positivity
  rw [abs_le]
  constructor <;> nlinarith

end FdInv
end Npplus
