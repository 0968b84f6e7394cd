import Mathlib.Analysis.SpecialFunctions.Gamma.Basic
import Mathlib.Analysis.SpecialFunctions.Gaussian.GaussianIntegral
import Mathlib.Analysis.SpecialFunctions.Trigonometric.Inverse
import Mathlib.Tactic

/-!
# The Fermi-Dirac integrals as a polynomial in an auxiliary variable

With `z = exp x = 4ρ/(1-ρ)²` and `u = exp (-t)` the factor `1/(1+zu)` is expanded in Chebyshev polynomials of `2u-1`;
the remainder of the finite expansion is exact, so everything is an inequality about finite sums.
-/

set_option linter.unusedSectionVars false
namespace Npplus
open MeasureTheory Set

/-- Fermi-Dirac integral of order `j` as documented in fermi.py: `integral[0 to inf]{ dt * t**j / (exp(t-x)+1) }`. -/
noncomputable def Spec.fermiDirac (j x : ℝ) : ℝ := ∫ t in Ioi (0 : ℝ), t ^ j / (Real.exp (t - x) + 1)

namespace Cheb

/-- Chebyshev polynomials by their recurrence. -/
def T (v : ℝ) : ℕ → ℝ
  | 0 => 1
  | 1 => v
  | n + 2 => 2 * v * T v (n + 1) - T v n

theorem T_cos (θ : ℝ) : ∀ n : ℕ, T (Real.cos θ) n = Real.cos (n * θ)
  | 0 => by simp [T]
  | 1 => by simp [T]
  | n + 2 => by
    rw [T, T_cos θ (n + 1), T_cos θ n]
    have h1 : ((n + 2 : ℕ) : ℝ) * θ = ((n + 1 : ℕ) : ℝ) * θ + θ := by push_cast; ring
    have h2 : ((n : ℕ) : ℝ) * θ = ((n + 1 : ℕ) : ℝ) * θ - θ := by push_cast; ring
    rw [h1, h2, Real.cos_add, Real.cos_sub]
    ring

theorem T_abs {v : ℝ} (h : |v| ≤ 1) (n : ℕ) : |T v n| ≤ 1 := by
  obtain ⟨h1, h2⟩ := abs_le.1 h
  rw [← Real.cos_arccos h1 h2, T_cos]
  exact Real.abs_cos_le_one _

/-- `1 + 2 Σ_{n=1}^N (-ρ)^n T_n(v)`. -/
noncomputable def P (ρ v : ℝ) (N : ℕ) : ℝ := 2 * (∑ n ∈ Finset.range (N + 1), (-ρ) ^ n * T v n) - 1

theorem P_identity (ρ v : ℝ) (N : ℕ) : (1 + 2 * ρ * v + ρ ^ 2) * P ρ v N =
    1 - ρ ^ 2 + 2 * (-ρ) ^ N * ρ * (T v (N + 1) + ρ * T v N) := by
  induction N with
  | zero => simp [P, T]; ring
  | succ N ih =>
    have hP : P ρ v (N + 1) = P ρ v N + 2 * ((-ρ) ^ (N + 1) * T v (N + 1)) := by
      unfold P; rw [Finset.sum_range_succ _ (N + 1)]; ring
    rw [hP, mul_add, ih, show T v (N + 1 + 1) = 2 * v * T v (N + 1) - T v N from rfl]
    ring

theorem P_bound {ρ v : ℝ} (h0 : 0 ≤ ρ) (h1 : ρ < 1) (hv : |v| ≤ 1) (N : ℕ) :
    |(1 - ρ) ^ 2 / (1 + 2 * ρ * v + ρ ^ 2) - (1 - ρ) / (1 + ρ) * P ρ v N| ≤ 2 * ρ ^ (N + 1) / (1 - ρ) := by
  have hv' := abs_le.1 hv
  have hd : (1 - ρ) ^ 2 ≤ 1 + 2 * ρ * v + ρ ^ 2 := by nlinarith
  have h1' : 0 < 1 - ρ := by linarith
  have hq : 0 < (1 - ρ) ^ 2 := by positivity
  have hdp : 0 < 1 + 2 * ρ * v + ρ ^ 2 := by linarith
  have hp : 0 < 1 + ρ := by linarith
  have hid := P_identity ρ v N
  have e : (1 - ρ) ^ 2 / (1 + 2 * ρ * v + ρ ^ 2) - (1 - ρ) / (1 + ρ) * P ρ v N =
      -((1 - ρ) / (1 + ρ)) * (2 * (-ρ) ^ N * ρ * (T v (N + 1) + ρ * T v N)) / (1 + 2 * ρ * v + ρ ^ 2) := by
    have : P ρ v N = (1 - ρ ^ 2 + 2 * (-ρ) ^ N * ρ * (T v (N + 1) + ρ * T v N)) / (1 + 2 * ρ * v + ρ ^ 2) := by
      rw [eq_div_iff hdp.ne', ← hid]; ring
    rw [this]
    field_simp
    ring
  rw [e, abs_div, abs_mul, abs_neg, abs_of_pos hdp, abs_of_pos (by positivity : 0 < (1 - ρ) / (1 + ρ))]
  have hT : |T v (N + 1) + ρ * T v N| ≤ 1 + ρ := by
    have a := T_abs hv (N + 1)
    have b := T_abs hv N
    calc _ ≤ |T v (N + 1)| + |ρ * T v N| := abs_add_le _ _
      _ ≤ 1 + ρ * 1 := by rw [abs_mul, abs_of_nonneg h0]; gcongr
      _ = 1 + ρ := by ring
  have hE : |2 * (-ρ) ^ N * ρ * (T v (N + 1) + ρ * T v N)| ≤ 2 * ρ ^ (N + 1) * (1 + ρ) := by
    rw [abs_mul, abs_mul, abs_mul, abs_pow, abs_neg, abs_of_nonneg h0, abs_two]
    calc 2 * ρ ^ N * ρ * |T v (N + 1) + ρ * T v N| ≤ 2 * ρ ^ N * ρ * (1 + ρ) := by gcongr
      _ = _ := by ring
  calc (1 - ρ) / (1 + ρ) * |2 * (-ρ) ^ N * ρ * (T v (N + 1) + ρ * T v N)| / (1 + 2 * ρ * v + ρ ^ 2)
      ≤ (1 - ρ) / (1 + ρ) * (2 * ρ ^ (N + 1) * (1 + ρ)) / (1 - ρ) ^ 2 := by gcongr
    _ = 2 * ρ ^ (N + 1) / (1 - ρ) := by field_simp

/-! ### polynomials with integer coefficients, lowest power first -/

/-- value of a polynomial -/
noncomputable def evZ : List ℤ → ℝ → ℝ
  | [], _ => 0
  | a :: L, u => a + u * evZ L u

/-- sum of two polynomials -/
def addZ : List ℤ → List ℤ → List ℤ
  | [], b => b
  | a, [] => a
  | x :: a, y :: b => (x + y) :: addZ a b

theorem evZ_add : ∀ (a b : List ℤ) (u : ℝ), evZ (addZ a b) u = evZ a u + evZ b u
  | [], b, u => by simp [addZ, evZ]
  | x :: a, [], u => by simp [addZ, evZ]
  | x :: a, y :: b, u => by simp only [addZ, evZ, evZ_add a b u]; push_cast; ring

theorem evZ_smul (c : ℤ) (a : List ℤ) (u : ℝ) : evZ (a.map (c * ·)) u = c * evZ a u := by
  induction a with
  | nil => simp [evZ]
  | cons x a ih => simp only [List.map_cons, evZ, ih]; push_cast; ring

/-- `2 (2u-1) b - a`. -/
def step (a b : List ℤ) : List ℤ := addZ (addZ (0 :: b.map (4 * ·)) (b.map (-2 * ·))) (a.map (-1 * ·))

theorem evZ_step (a b : List ℤ) (u : ℝ) : evZ (step a b) u = 2 * (2 * u - 1) * evZ b u - evZ a u := by
  unfold step
  rw [evZ_add, evZ_add, evZ_smul, evZ_smul]
  simp only [evZ, evZ_smul]
  push_cast; ring

/-- sum of absolute values -/
def absum (a : List ℤ) : ℤ := a.foldr (fun x s => |x| + s) 0

/-- `Σ a_m r_m` -/
def dot : List ℤ → List ℤ → ℤ
  | x :: a, y :: b => x * y + dot a b
  | _, _ => 0

/-- `Σ a_m (k+m)^(-s)`. -/
noncomputable def mom (s : ℝ) : List ℤ → ℕ → ℝ
  | [], _ => 0
  | x :: a, k => x * (1 / (k : ℝ)) ^ s + mom s a (k + 1)

/-- `r` are the numbers `D (k+m)^(-s)`, up to 1. -/
def Close (D s : ℝ) : List ℤ → ℕ → Prop
  | [], _ => True
  | y :: r, k => |D * (1 / (k : ℝ)) ^ s - y| ≤ 1 ∧ Close D s r (k + 1)

theorem dot_close {D s : ℝ} : ∀ (a r : List ℤ) (k : ℕ), a.length ≤ r.length → Close D s r k →
    |D * mom s a k - dot a r| ≤ absum a
  | [], r, k, _, _ => by simp [mom, dot, absum]
  | x :: a, [], k, h, _ => by simp at h
  | x :: a, y :: r, k, h, hc => by
    have ih := dot_close a r (k + 1) (by simpa using h) hc.2
    have e : D * mom s (x :: a) k - (dot (x :: a) (y :: r) : ℤ) =
        x * (D * (1 / (k : ℝ)) ^ s - y) + (D * mom s a (k + 1) - dot a r) := by
      simp only [mom, dot]; push_cast; ring
    rw [e]
    calc _ ≤ |(x : ℝ) * (D * (1 / (k : ℝ)) ^ s - y)| + |D * mom s a (k + 1) - dot a r| := abs_add_le _ _
      _ ≤ |(x : ℝ)| * 1 + (absum a : ℤ) := by
        rw [abs_mul]
        gcongr
        exact hc.1
      _ = (absum (x :: a) : ℤ) := by simp [absum]

/-- The shifted Chebyshev polynomials: coefficient lists number `n` and `n+1`. -/
def tau : ℕ → List ℤ × List ℤ
  | 0 => ([1], [-1, 2])
  | n + 1 => ((tau n).2, step (tau n).1 (tau n).2)

theorem evZ_tau (u : ℝ) (n : ℕ) : evZ (tau n).1 u = T (2 * u - 1) n ∧ evZ (tau n).2 u = T (2 * u - 1) (n + 1) := by
  induction n with
  | zero => simp [tau, evZ, T]; ring
  | succ n ih => exact ⟨ih.2, by rw [tau, evZ_step, ih.1, ih.2]; rfl⟩

/-- the dot products of `n` consecutive polynomials with `r`, starting with `a`, `b` -/
def dots (r : List ℤ) : ℕ → List ℤ → List ℤ → List ℤ
  | 0, _, _ => []
  | n + 1, a, b => dot a r :: dots r n b (step a b)

/-- the sums of absolute values of `n` consecutive polynomials -/
def absums : ℕ → List ℤ → List ℤ → ℤ
  | 0, _, _ => 0
  | n + 1, a, b => absum a + absums n b (step a b)

theorem addZ_length : ∀ a b : List ℤ, (addZ a b).length = max a.length b.length
  | [], b => by simp [addZ]
  | x :: a, [] => by simp [addZ]
  | x :: a, y :: b => by simp [addZ, addZ_length a b]

theorem tau_length (n : ℕ) : (tau n).1.length = n + 1 ∧ (tau n).2.length = n + 2 := by
  induction n with
  | zero => simp [tau]
  | succ n ih =>
    refine ⟨ih.2, ?_⟩
    simp only [tau, step, addZ_length, List.length_map, List.length_cons, ih.1, ih.2]
    omega

theorem dots_close {D s : ℝ} {r : List ℤ} (hr : Close D s r 1) (v : ℝ) (hv : |v| ≤ 1) : ∀ (n k : ℕ), k + n ≤ r.length →
    |D * (∑ i ∈ Finset.range n, v ^ i * mom s (tau (k + i)).1 1) - evZ (dots r n (tau k).1 (tau k).2) v| ≤
      absums n (tau k).1 (tau k).2
  | 0, k, _ => by simp [dots, evZ, absums]
  | n + 1, k, h => by
    have ih := dots_close hr v hv n (k + 1) (by omega)
    have hd := dot_close (tau k).1 r 1 (by have := (tau_length k).1; omega) hr
    have e : D * (∑ i ∈ Finset.range (n + 1), v ^ i * mom s (tau (k + i)).1 1) -
        evZ (dots r (n + 1) (tau k).1 (tau k).2) v = (D * mom s (tau k).1 1 - dot (tau k).1 r) +
        v * (D * (∑ i ∈ Finset.range n, v ^ i * mom s (tau (k + 1 + i)).1 1) -
          evZ (dots r n (tau (k + 1)).1 (tau (k + 1)).2) v) := by
      rw [Finset.sum_range_succ']
      rw [show evZ (dots r (n + 1) (tau k).1 (tau k).2) v = dot (tau k).1 r +
        v * evZ (dots r n (tau (k + 1)).1 (tau (k + 1)).2) v from rfl]
      simp only [pow_succ, pow_zero, one_mul, Nat.add_zero]
      rw [show (∑ i ∈ Finset.range n, v ^ i * v * mom s (tau (k + (i + 1))).1 1) =
        v * ∑ i ∈ Finset.range n, v ^ i * mom s (tau (k + 1 + i)).1 1 by
          rw [Finset.mul_sum]
          refine Finset.sum_congr rfl fun i _ => ?_
          rw [show k + (i + 1) = k + 1 + i by ring]; ring]
      ring
    rw [e]
    calc _ ≤ |D * mom s (tau k).1 1 - dot (tau k).1 r| + |v * (D * (∑ i ∈ Finset.range n, v ^ i * mom s (tau (k + 1 + i)).1 1) -
          evZ (dots r n (tau (k + 1)).1 (tau (k + 1)).2) v)| := abs_add_le _ _
      _ ≤ (absum (tau k).1 : ℤ) + 1 * (absums n (tau (k + 1)).1 (tau (k + 1)).2 : ℤ) := by
        rw [abs_mul]
        gcongr
      _ = (absums (n + 1) (tau k).1 (tau k).2 : ℤ) := by
        simp only [absums, tau]; push_cast; ring

/-! ### the integrals -/

/-- `t^(s-1) exp(-t)^k (polynomial of exp(-t))` -/
theorem mom_integral {s : ℝ} (hs : 0 < s) : ∀ (a : List ℤ) (k : ℕ), 0 < k →
    IntegrableOn (fun t : ℝ => t ^ (s - 1) * (Real.exp (-t) ^ k * evZ a (Real.exp (-t)))) (Ioi 0) ∧
    ∫ t in Ioi (0 : ℝ), t ^ (s - 1) * (Real.exp (-t) ^ k * evZ a (Real.exp (-t))) = Real.Gamma s * mom s a k
  | [], k, _ => by simp [evZ, mom]
  | x :: a, k, hk => by
    obtain ⟨i1, i2⟩ := mom_integral hs a (k + 1) (by omega)
    have hk' : (0 : ℝ) < k := by exact_mod_cast hk
    have hexp : ∀ t : ℝ, Real.exp (-t) ^ k = Real.exp (-((k : ℝ) * t)) := by
      intro t; rw [← Real.exp_nat_mul]; congr 1; ring
    have g1 : IntegrableOn (fun t : ℝ => t ^ (s - 1) * Real.exp (-t) ^ k) (Ioi 0) := by
      have := integrableOn_rpow_mul_exp_neg_mul_rpow (p := 1) (s := s - 1) (b := k) (by linarith) one_pos hk'
      refine this.congr_fun (fun t ht => ?_) measurableSet_Ioi
      simp only [hexp, Real.rpow_one, neg_mul]
    have g2 : ∫ t in Ioi (0 : ℝ), t ^ (s - 1) * Real.exp (-t) ^ k = (1 / (k : ℝ)) ^ s * Real.Gamma s := by
      simp only [hexp]
      exact Real.integral_rpow_mul_exp_neg_mul_Ioi hs hk'
    have e : ∀ t : ℝ, t ^ (s - 1) * (Real.exp (-t) ^ k * evZ (x :: a) (Real.exp (-t))) =
        (x : ℝ) * (t ^ (s - 1) * Real.exp (-t) ^ k) + t ^ (s - 1) * (Real.exp (-t) ^ (k + 1) * evZ a (Real.exp (-t))) := by
      intro t; simp only [evZ, pow_succ]; ring
    simp only [e]
    refine ⟨(g1.const_mul _).add i1, ?_⟩
    rw [integral_add (g1.const_mul _) i1, integral_const_mul, g2, i2, mom]
    ring

/-- The integral, up to the truncation of the expansion. -/
theorem integral_bound {s ρ x : ℝ} (hs : 0 < s) (h0 : 0 < ρ) (h1 : ρ < 1) (hz : Real.exp x = 4 * ρ / (1 - ρ) ^ 2) (N : ℕ) :
    |Spec.fermiDirac (s - 1) x - Real.exp x * ((1 - ρ) / (1 + ρ)) * Real.Gamma s *
      (2 * (∑ n ∈ Finset.range (N + 1), (-ρ) ^ n * mom s (tau n).1 1) - mom s (tau 0).1 1)| ≤
    Real.exp x * Real.Gamma s * (2 * ρ ^ (N + 1) / (1 - ρ)) := by
  have h1' : 0 < 1 - ρ := by linarith
  have hp : 0 < 1 + ρ := by linarith
  have hzp := Real.exp_pos x
  set z := Real.exp x with hzdef
  set h := (1 - ρ) / (1 + ρ) with hh
  have hI := fun n => mom_integral hs (tau n).1 1 one_pos
  -- the approximating integrand
  have hsum : ∀ t : ℝ, t ^ (s - 1) * (z * (Real.exp (-t) * (h * P ρ (2 * Real.exp (-t) - 1) N))) =
      z * h * (2 * (∑ n ∈ Finset.range (N + 1), (-ρ) ^ n * (t ^ (s - 1) * (Real.exp (-t) ^ 1 * evZ (tau n).1 (Real.exp (-t))))) -
        t ^ (s - 1) * (Real.exp (-t) ^ 1 * evZ (tau 0).1 (Real.exp (-t)))) := by
    intro t
    simp only [(evZ_tau _ _).1, pow_one, P]
    have : ∑ n ∈ Finset.range (N + 1), (-ρ) ^ n * (t ^ (s - 1) * (Real.exp (-t) * T (2 * Real.exp (-t) - 1) n)) =
        t ^ (s - 1) * Real.exp (-t) * ∑ n ∈ Finset.range (N + 1), (-ρ) ^ n * T (2 * Real.exp (-t) - 1) n := by
      rw [Finset.mul_sum]; exact Finset.sum_congr rfl fun _ _ => by ring
    rw [this, show T (2 * Real.exp (-t) - 1) 0 = 1 from rfl]
    ring
  have hsI : IntegrableOn (fun t : ℝ => ∑ n ∈ Finset.range (N + 1), (-ρ) ^ n *
      (t ^ (s - 1) * (Real.exp (-t) ^ 1 * evZ (tau n).1 (Real.exp (-t))))) (Ioi 0) :=
    integrable_finset_sum _ fun n _ => (hI n).1.const_mul _
  have hAI : IntegrableOn (fun t : ℝ => t ^ (s - 1) * (z * (Real.exp (-t) * (h * P ρ (2 * Real.exp (-t) - 1) N)))) (Ioi 0) := by
    simp only [hsum]
    exact ((hsI.const_mul 2).sub (hI 0).1).const_mul _
  have hA : ∫ t in Ioi (0 : ℝ), t ^ (s - 1) * (z * (Real.exp (-t) * (h * P ρ (2 * Real.exp (-t) - 1) N))) =
      z * h * Real.Gamma s * (2 * (∑ n ∈ Finset.range (N + 1), (-ρ) ^ n * mom s (tau n).1 1) - mom s (tau 0).1 1) := by
    simp only [hsum]
    rw [integral_const_mul, integral_sub (hsI.const_mul 2) (hI 0).1, integral_const_mul,
      integral_finset_sum _ fun n _ => (hI n).1.const_mul _]
    simp only [integral_const_mul, (hI _).2]
    rw [show (∑ n ∈ Finset.range (N + 1), (-ρ) ^ n * (Real.Gamma s * mom s (tau n).1 1)) =
      Real.Gamma s * ∑ n ∈ Finset.range (N + 1), (-ρ) ^ n * mom s (tau n).1 1 by
        rw [Finset.mul_sum]; exact Finset.sum_congr rfl fun _ _ => by ring]
    ring
  -- the integrand
  have hF : ∀ t : ℝ, t ^ (s - 1) / (Real.exp (t - x) + 1) =
      t ^ (s - 1) * (z * (Real.exp (-t) * ((1 - ρ) ^ 2 / (1 + 2 * ρ * (2 * Real.exp (-t) - 1) + ρ ^ 2)))) := by
    intro t
    have hu := Real.exp_pos (-t)
    have e1 : Real.exp (t - x) = 1 / (z * Real.exp (-t)) := by
      rw [hzdef, ← Real.exp_add, one_div, ← Real.exp_neg]; congr 1; ring
    have e2 : 1 + 2 * ρ * (2 * Real.exp (-t) - 1) + ρ ^ 2 = (1 - ρ) ^ 2 * (1 + z * Real.exp (-t)) := by
      rw [hz]; field_simp; ring
    rw [e1, e2]
    have : 0 < 1 + z * Real.exp (-t) := by positivity
    field_simp
  have hle : ∀ t ∈ Ioi (0 : ℝ), |t ^ (s - 1) / (Real.exp (t - x) + 1) -
      t ^ (s - 1) * (z * (Real.exp (-t) * (h * P ρ (2 * Real.exp (-t) - 1) N)))| ≤
      z * (2 * ρ ^ (N + 1) / (1 - ρ)) * (t ^ (s - 1) * Real.exp (-t)) := by
    intro t ht
    have ht' : (0 : ℝ) < t := ht
    have hu := Real.exp_pos (-t)
    have hu1 : Real.exp (-t) ≤ 1 := Real.exp_le_one_iff.2 (by linarith)
    have hb := P_bound h0.le h1 (v := 2 * Real.exp (-t) - 1) (abs_le.2 ⟨by linarith, by linarith⟩) N
    have hr : 0 ≤ t ^ (s - 1) := Real.rpow_nonneg ht'.le _
    rw [hF, ← mul_sub, ← mul_sub, ← mul_sub, abs_mul, abs_mul, abs_mul, abs_of_nonneg hr, abs_of_pos hzp, abs_of_pos hu]
    calc _ ≤ t ^ (s - 1) * (z * (Real.exp (-t) * (2 * ρ ^ (N + 1) / (1 - ρ)))) := by gcongr
      _ = _ := by ring
  have hGI : IntegrableOn (fun t : ℝ => t ^ (s - 1) * Real.exp (-t)) (Ioi 0) ∧
      ∫ t in Ioi (0 : ℝ), t ^ (s - 1) * Real.exp (-t) = Real.Gamma s := by
    have := mom_integral hs [1] 1 one_pos
    simpa [evZ, mom] using this
  have hmeas : AEStronglyMeasurable (fun t : ℝ => t ^ (s - 1) / (Real.exp (t - x) + 1)) (volume.restrict (Ioi 0)) := by
    apply Measurable.aestronglyMeasurable
    fun_prop
  have hDI : IntegrableOn (fun t : ℝ => t ^ (s - 1) / (Real.exp (t - x) + 1)) (Ioi 0) := by
    have hm := (hGI.1.const_mul z)
    refine hm.mono' hmeas ?_
    filter_upwards [ae_restrict_mem measurableSet_Ioi] with t ht
    have ht' : (0 : ℝ) < t := ht
    have hr : 0 ≤ t ^ (s - 1) := Real.rpow_nonneg ht'.le _
    rw [Real.norm_of_nonneg (by positivity)]
    calc t ^ (s - 1) / (Real.exp (t - x) + 1) ≤ t ^ (s - 1) / Real.exp (t - x) := by
          apply div_le_div_of_nonneg_left hr (Real.exp_pos _); linarith
      _ = z * (t ^ (s - 1) * Real.exp (-t)) := by
        rw [div_eq_mul_inv, ← Real.exp_neg, hzdef, show -(t - x) = x + -t by ring, Real.exp_add]; ring
  have key := norm_integral_le_of_norm_le (hGI.1.const_mul (z * (2 * ρ ^ (N + 1) / (1 - ρ))))
    (f := fun t : ℝ => t ^ (s - 1) / (Real.exp (t - x) + 1) - t ^ (s - 1) * (z * (Real.exp (-t) * (h * P ρ (2 * Real.exp (-t) - 1) N))))
    (by filter_upwards [ae_restrict_mem measurableSet_Ioi] with t ht using hle t ht)
  rw [integral_sub hDI hAI, hA, integral_const_mul, hGI.2] at key
  unfold Spec.fermiDirac
  rw [Real.norm_eq_abs] at key
  calc _ ≤ _ := key
    _ = _ := by ring

end Cheb
end Npplus
