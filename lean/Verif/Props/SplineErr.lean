import Verif.Lemmas.SplineErr2
import Verif.Props.SplineMin
import Mathlib.Analysis.SpecialFunctions.Trigonometric.Deriv

/-!
# Splines of odd degree converge to the interpolated function (npplus/pwpoly.py: spline)
-/

set_option linter.unusedSectionVars false
namespace Npplus
open Spec Set MeasureTheory Spl

variable {inv : InvFun ℝ} {S : Scipy ℝ} {x : List ℝ} {m : ℕ} {extrap : Option (ℕ × ℕ)} {p : PwPoly ℝ ℝ}

/-- from the identity of Pythagoras to the error -/
theorem err_of_pyth (hp : WF p) (hl : 2 ≤ p.xk.length) (hlm : m ≤ p.xk.length) (hm1 : 1 ≤ m)
    (hm : ∀ j, 0 < j → j + 1 < p.xk.length → ∀ k, k + 2 ≤ 2 * m → MatchAt p k j) {G : ℕ → ℝ → ℝ}
    (hG : SquareIntegrable m G (p.xk.getD 0 0) (p.xk.getD (p.xk.length - 1) 0))
    (hi : ∀ j < p.xk.length, G 0 (p.xk.getD j 0) = inside p 0 (p.xk.getD j 0))
    (hpy : ∫ t in (p.xk.getD 0 0)..(p.xk.getD (p.xk.length - 1) 0), G m t ^ 2 =
      (∫ t in (p.xk.getD 0 0)..(p.xk.getD (p.xk.length - 1) 0), (p.deriv m).call t ^ 2) +
        ∫ t in (p.xk.getD 0 0)..(p.xk.getD (p.xk.length - 1) 0), (G m t - (p.deriv m).call t) ^ 2) {h : ℝ}
    (hh : ∀ i, i + 1 < p.xk.length → p.xk.getD (i + 1) 0 - p.xk.getD i 0 ≤ h) :
    ∀ k < m, ∀ t ∈ Icc (p.xk.getD 0 0) (p.xk.getD (p.xk.length - 1) 0), |G k t - inside p k t| ≤
      ((max m 2 - 1 : ℕ) * h) ^ (m - 1 - k) * √((max m 2 - 1 : ℕ) * h * ∫ r in (p.xk.getD 0 0)..(p.xk.getD (p.xk.length - 1) 0), G m r ^ 2) := by
  intro k hk t ht
  have hH := inside_squareIntegrable hp hl hm1 fun j h1 h2 k hk => hm j h1 h2 k (by omega)
  have hle0 := sorted_le hp.inc (Nat.zero_le (p.xk.length - 1)) (by omega)
  refine (err_knots hm1 hp.inc hl hlm (hG.sub hH) (fun j hj => by rw [hi j hj]; ring) hh k hk t ht).trans ?_
  have h0 : 0 ≤ ∫ t in (p.xk.getD 0 0)..(p.xk.getD (p.xk.length - 1) 0), (p.deriv m).call t ^ 2 :=
    intervalIntegral.integral_nonneg hle0 fun t _ => sq_nonneg _
  have e := integral_Ioc_congr hle0 fun t ht => show (G m t - inside p m t) ^ 2 = (G m t - (p.deriv m).call t) ^ 2 by
    rw [inside_of_lt hp ht.1]
  have hh0 : 0 ≤ h := by
    have h1 := hh 0 (by omega)
    have h2 : p.xk.getD 0 0 < p.xk.getD (0 + 1) 0 := sorted_lt hp.inc (by omega) (by omega)
    linarith
  have hw0 : 0 ≤ ((max m 2 - 1 : ℕ) : ℝ) * h := mul_nonneg (Nat.cast_nonneg _) hh0
  refine mul_le_mul_of_nonneg_left (Real.sqrt_le_sqrt (mul_le_mul_of_nonneg_left ?_ hw0)) (pow_nonneg hw0 _)
  rw [e]
  linarith

/-- **C102**, default boundary conditions: if the spline of degree 2m-1 is made from values of a function with a square integrable
derivative of order `m`, the derivatives of order `k < m` of the spline differ from those of the function at most by
w^(m-1/2-k) sqrt(integral of the square of the derivative of order m), with w the largest distance of neighbours in `x`, times m-1 (times
1 if m = 1). -/
theorem C102_natural (hinv : InvOK inv) (hS : ScipyOK S) (hs : x.Pairwise (· < ·)) (hm : 1 ≤ m) {F : ℕ → ℝ → ℝ}
    (h : spline inv S x (x.map (F 0)) (2 * m - 1) [] [] false extrap = .ok (.pw p))
    (hF : SquareIntegrable m F (x.getD 0 0) (x.getD (x.length - 1) 0)) {d : ℝ} (hd : ∀ i, i + 1 < x.length → x.getD (i + 1) 0 - x.getD i 0 ≤ d) :
    ∀ k < m, ∀ t ∈ Ioc (x.getD 0 0) (x.getD (x.length - 1) 0), |F k t - (p.deriv k).call t| ≤
      ((max m 2 - 1 : ℕ) * d) ^ (m - 1 - k) * √((max m 2 - 1 : ℕ) * d * ∫ r in (x.getD 0 0)..(x.getD (x.length - 1) 0), F m r ^ 2) := by
  have hi : Interpolates x (x.map (F 0)) F := fun j hj => by
    simp [List.getD_eq_getElem?_getD, hj]
  obtain ⟨hx, hy, -, -, -, -⟩ := spline_nonper hs h
  obtain ⟨-, hw, hxk, -, hin, hv, hM⟩ := spline_inside hinv hS hs hm h
  have hlen : m ≤ x.length := by
    by_contra hc
    have := (C24_default_iff (inv := inv) (extrap := extrap) hS hs hx hy (n := 2 * m - 1) (by omega)).2 (by omega)
    rw [this] at h
    cases h
  obtain ⟨z0, z1⟩ := natural_ends hinv hS hs hm h
  have hpy := C101_pythagoras hinv hS hs hm h hF hi (fun k h1 h2 => Or.inl (z0 k h1 h2)) (fun k h1 h2 => Or.inl (z1 k h1 h2))
  subst hxk
  intro k hk t ht
  rw [← inside_of_lt hw ht.1]
  exact err_of_pyth hw hx hlen hm hM hF (fun j hj => by rw [hi j hj, hin _ (sorted_le hw.inc (by omega) hj), hv j hj]) hpy hd k hk t
    ⟨ht.1.le, ht.2⟩

/-- **C102**, derivatives given at the ends -/
theorem C102_clamped (hinv : InvOK inv) (hS : ScipyOK S) (hs : x.Pairwise (· < ·)) (hm : 1 ≤ m) (hlen : m ≤ x.length) {F : ℕ → ℝ → ℝ}
    {lo hi : List ℝ} (hlo : lo.length = m - 1) (hhi : hi.length = m - 1)
    (h : spline inv S x (x.map (F 0)) (2 * m - 1) (lo.map some) (hi.map some) false extrap = .ok (.pw p))
    (hF : SquareIntegrable m F (x.getD 0 0) (x.getD (x.length - 1) 0))
    (h0 : ∀ q < m - 1, F (q + 1) (x.getD 0 0) = (q + 1).factorial * lo.getD q 0)
    (h1 : ∀ q < m - 1, F (q + 1) (x.getD (x.length - 1) 0) = (q + 1).factorial * hi.getD q 0)
    {d : ℝ} (hd : ∀ i, i + 1 < x.length → x.getD (i + 1) 0 - x.getD i 0 ≤ d) :
    ∀ k < m, ∀ t ∈ Ioc (x.getD 0 0) (x.getD (x.length - 1) 0), |F k t - (p.deriv k).call t| ≤
      ((max m 2 - 1 : ℕ) * d) ^ (m - 1 - k) * √((max m 2 - 1 : ℕ) * d * ∫ r in (x.getD 0 0)..(x.getD (x.length - 1) 0), F m r ^ 2) := by
  have hi' : Interpolates x (x.map (F 0)) F := fun j hj => by
    simp [List.getD_eq_getElem?_getD, hj]
  obtain ⟨hx, hw, hxk, -, hin, hv, hM⟩ := spline_inside hinv hS hs hm h
  obtain ⟨z0, z1⟩ := clamped_ends hinv hS hs hlo hhi h h0 h1
  have hpy := C101_pythagoras hinv hS hs hm h hF hi' (fun k h1 h2 => Or.inr (z0 k h1 h2)) (fun k h1 h2 => Or.inr (z1 k h1 h2))
  subst hxk
  intro k hk t ht
  rw [← inside_of_lt hw ht.1]
  exact err_of_pyth hw hx hlen hm hM hF (fun j hj => by rw [hi' j hj, hin _ (sorted_le hw.inc (by omega) hj), hv j hj]) hpy hd k hk t
    ⟨ht.1.le, ht.2⟩

theorem parts2_zero {m : ℕ} {E : ℕ → ℝ → ℝ} {t : ℝ} (hv : E 0 t = 0)
    (h : ∀ k, 1 ≤ k → k < m → E (2 * m - 1 - k) t = 0 ∨ E k t = 0) : parts2 m E t = 0 := by
  unfold parts2
  refine Finset.sum_eq_zero fun r hr => ?_
  have hr := Finset.mem_range.1 hr
  rcases Nat.eq_zero_or_pos (m - 1 - r) with e | e
  · rw [e, hv]
    ring
  · rcases h (m - 1 - r) e (by omega) with h | h
    · rw [show 2 * m - 1 - (m - 1 - r) = m + r by omega] at h
      rw [h]
      ring
    · rw [h]
      ring

/-- **C102**, smooth functions: if the function has 2m derivatives and its derivatives at the ends agree with those of the spline (one of
each pair of conjugate orders), the error is at most w^(2m-1-k) times the integral of the absolute value of the derivative of order
2m. -/
theorem C102_smooth (hinv : InvOK inv) (hS : ScipyOK S) (hs : x.Pairwise (· < ·)) (hm : 1 ≤ m) (hlen : m ≤ x.length) {F : ℕ → ℝ → ℝ}
    {lo hi : List (Option ℝ)} (h : spline inv S x (x.map (F 0)) (2 * m - 1) lo hi false extrap = .ok (.pw p))
    (hF : Derivs (2 * m) F (x.getD 0 0) (x.getD (x.length - 1) 0))
    (hFi : IntervalIntegrable (F (2 * m)) volume (x.getD 0 0) (x.getD (x.length - 1) 0))
    (h0 : ∀ k, 1 ≤ k → k < m → F (2 * m - 1 - k) (x.getD 0 0) = pieceDeriv p 1 (x.getD 0 0) (2 * m - 1 - k) ∨
      F k (x.getD 0 0) = pieceDeriv p 1 (x.getD 0 0) k)
    (h1 : ∀ k, 1 ≤ k → k < m →
      F (2 * m - 1 - k) (x.getD (x.length - 1) 0) = pieceDeriv p (x.length - 1) (x.getD (x.length - 1) 0) (2 * m - 1 - k) ∨
      F k (x.getD (x.length - 1) 0) = pieceDeriv p (x.length - 1) (x.getD (x.length - 1) 0) k)
    {d : ℝ} (hd : ∀ i, i + 1 < x.length → x.getD (i + 1) 0 - x.getD i 0 ≤ d) :
    ∀ k < m, ∀ t ∈ Ioc (x.getD 0 0) (x.getD (x.length - 1) 0), |F k t - (p.deriv k).call t| ≤
      ((max m 2 - 1 : ℕ) * d) ^ (2 * m - 1 - k) * ∫ r in (x.getD 0 0)..(x.getD (x.length - 1) 0), |F (2 * m) r| := by
  have hi' : Interpolates x (x.map (F 0)) F := fun j hj => by
    simp [List.getD_eq_getElem?_getD, hj]
  obtain ⟨hx, hw, hxk, hn, hin, hv, hM⟩ := spline_inside hinv hS hs hm h
  subst hxk
  have hknot : ∀ j < p.xk.length, F 0 (p.xk.getD j 0) = inside p 0 (p.xk.getD j 0) := fun j hj => by
    rw [hi' j hj, hin _ (sorted_le hw.inc (by omega) hj), hv j hj]
  have hl1 : F 0 (p.xk.getD 0 0) = pieceDeriv p 1 (p.xk.getD 0 0) 0 := by
    rw [hknot 0 (by omega)]
    unfold inside
    rw [if_pos le_rfl]
  have hr1 : F 0 (p.xk.getD (p.xk.length - 1) 0) = pieceDeriv p (p.xk.length - 1) (p.xk.getD (p.xk.length - 1) 0) 0 := by
    obtain ⟨i, hi⟩ : ∃ i, i + 2 = p.xk.length := ⟨p.xk.length - 2, by omega⟩
    have ei : p.xk.length - 1 = i + 1 := by omega
    rw [hknot _ (by omega), ei]
    exact inside_Ioc hw (by omega) ⟨sorted_lt hw.inc (by omega) (by omega), le_rfl⟩
  intro k hk t ht
  rw [← inside_of_lt hw ht.1]
  refine err_smooth hw hx hlen hm hn hM hF hFi hknot ?_ hd k hk t ⟨ht.1.le, ht.2⟩
  rw [parts2_zero (E := fun k t => F k t - pieceDeriv p (p.xk.length - 1) t k) (sub_eq_zero.2 hr1) fun k a b =>
      (h1 k a b).imp sub_eq_zero.2 sub_eq_zero.2,
    parts2_zero (E := fun k t => F k t - pieceDeriv p 1 t k) (sub_eq_zero.2 hl1) fun k a b => (h0 k a b).imp sub_eq_zero.2 sub_eq_zero.2]

/-- **C102**, smooth functions, derivatives given at the ends: the error of the spline of degree 2m-1 is at most w^(2m-1) times the
integral of the absolute value of the derivative of order 2m. -/
theorem C102_smooth_clamped (hinv : InvOK inv) (hS : ScipyOK S) (hs : x.Pairwise (· < ·)) (hm : 1 ≤ m) (hlen : m ≤ x.length) {F : ℕ → ℝ → ℝ}
    {lo hi : List ℝ} (hlo : lo.length = m - 1) (hhi : hi.length = m - 1)
    (h : spline inv S x (x.map (F 0)) (2 * m - 1) (lo.map some) (hi.map some) false extrap = .ok (.pw p))
    (hF : Derivs (2 * m) F (x.getD 0 0) (x.getD (x.length - 1) 0))
    (hFi : IntervalIntegrable (F (2 * m)) volume (x.getD 0 0) (x.getD (x.length - 1) 0))
    (h0 : ∀ q < m - 1, F (q + 1) (x.getD 0 0) = (q + 1).factorial * lo.getD q 0)
    (h1 : ∀ q < m - 1, F (q + 1) (x.getD (x.length - 1) 0) = (q + 1).factorial * hi.getD q 0)
    {d : ℝ} (hd : ∀ i, i + 1 < x.length → x.getD (i + 1) 0 - x.getD i 0 ≤ d) :
    ∀ k < m, ∀ t ∈ Ioc (x.getD 0 0) (x.getD (x.length - 1) 0), |F k t - (p.deriv k).call t| ≤
      ((max m 2 - 1 : ℕ) * d) ^ (2 * m - 1 - k) * ∫ r in (x.getD 0 0)..(x.getD (x.length - 1) 0), |F (2 * m) r| := by
  obtain ⟨z0, z1⟩ := clamped_ends hinv hS hs hlo hhi h h0 h1
  exact C102_smooth hinv hS hs hm hlen h hF hFi (fun k a b => Or.inr (z0 k a b)) (fun k a b => Or.inr (z1 k a b)) hd

/-- **C102**, periodic splines of smooth functions with the same period -/
theorem C102_periodic (hinv : InvOK inv) (hS : ScipyOK S) (hs : x.Pairwise (· < ·)) (hm : 1 ≤ m) (hlen : m ≤ x.length) {F : ℕ → ℝ → ℝ}
    {P : PerPwPoly ℝ ℝ} {lo hi : List (Option ℝ)} (h : spline inv S x (x.map (F 0)) (2 * m - 1) lo hi true extrap = .ok (.per P))
    {f : ℝ → ℝ} (hf : ∀ t, P.call t = .ok (f t))
    (hF : Derivs (2 * m) F (x.getD 0 0) (x.getD (x.length - 1) 0))
    (hFi : IntervalIntegrable (F (2 * m)) volume (x.getD 0 0) (x.getD (x.length - 1) 0))
    (hp : ∀ k < 2 * m, F k (x.getD (x.length - 1) 0) = F k (x.getD 0 0))
    {d : ℝ} (hd : ∀ i, i + 1 < x.length → x.getD (i + 1) 0 - x.getD i 0 ≤ d) :
    ∀ t ∈ Icc (x.getD 0 0) (x.getD (x.length - 1) 0), |F 0 t - f t| ≤
      ((max m 2 - 1 : ℕ) * d) ^ (2 * m - 1) * ∫ r in (x.getD 0 0)..(x.getD (x.length - 1) 0), |F (2 * m) r| := by
  have hi' : Interpolates x (x.map (F 0)) F := fun j hj => by
    simp [List.getD_eq_getElem?_getD, hj]
  obtain ⟨hx, hw, hxk, hn, hI, hM, hends⟩ := periodic_inside hinv hS hs hm h hf
  obtain ⟨-, -, -, -, -, -, -, -, hv, hvl, -⟩ := C27_periodic hinv hS hs h
  subst hxk
  set p := P.base with hpdef
  have hle0 : p.xk.getD 0 0 ≤ p.xk.getD (p.xk.length - 1) 0 := sorted_le hw.inc (Nat.zero_le _) (by omega)
  have hknot : ∀ j < p.xk.length, F 0 (p.xk.getD j 0) = inside p 0 (p.xk.getD j 0) := by
    intro j hj
    rw [hI _ ⟨sorted_le hw.inc (by omega) hj, sorted_le hw.inc (by omega) (by omega)⟩]
    rcases Nat.lt_or_ge (j + 1) p.xk.length with h1 | h1
    · have := hv j h1
      rw [hf] at this
      rw [hi' j hj, Except.ok.inj this]
    · obtain rfl : j = p.xk.length - 1 := by omega
      rw [hf] at hvl
      rw [hp 0 (by omega), Except.ok.inj hvl, hi' 0 (by omega)]
  intro t ht
  rw [← hI t ht]
  refine err_smooth hw hx hlen hm hn hM hF hFi hknot ?_ hd 0 (by omega) t ht
  unfold parts2
  refine Finset.sum_congr rfl fun r hr => ?_
  have hr := Finset.mem_range.1 hr
  beta_reduce
  have hl1 : F 0 (p.xk.getD 0 0) = pieceDeriv p 1 (p.xk.getD 0 0) 0 := by
    rw [hknot 0 (by omega)]
    unfold inside
    rw [if_pos le_rfl]
  rw [hends (m - 1 - r) (by omega), hp (m - 1 - r) (by omega), hp (m + r) (by omega)]
  rcases Nat.lt_or_ge (r + 1) m with h1 | h1
  · rw [hends (m + r) (by omega)]
  · rw [show m - 1 - r = 0 by omega, hl1, sub_self]
    simp

/-- the derivatives of the sine -/
noncomputable def exSin : ℕ → ℝ → ℝ
  | 0 => Real.sin
  | 1 => Real.cos
  | 2 => fun t => -Real.sin t
  | 3 => fun t => -Real.cos t
  | _ => Real.sin

theorem exSin_ok (a b : ℝ) : Derivs (2 * 2) exSin a b := by
  refine ⟨fun k hk => ?_, fun k hk x _ => ?_⟩
  · obtain rfl | rfl | rfl | rfl : k = 0 ∨ k = 1 ∨ k = 2 ∨ k = 3 := by omega
    · exact Real.continuous_sin.continuousOn
    · exact Real.continuous_cos.continuousOn
    · exact Real.continuous_sin.neg.continuousOn
    · exact Real.continuous_cos.neg.continuousOn
  · obtain rfl | rfl | rfl | rfl : k = 0 ∨ k = 1 ∨ k = 2 ∨ k = 3 := by omega
    · exact Real.hasDerivAt_sin x
    · exact Real.hasDerivAt_cos x
    · exact (Real.hasDerivAt_sin x).neg
    · have := (Real.hasDerivAt_cos x).neg
      rw [neg_neg] at this
      exact this

/-- the cubic spline through three points of the sine, with its slopes at the ends -/
example : ∃ p, spline (adjInv ℝ) (exactScipy ℝ) [0, 1/10, 2/10] ([0, 1/10, 2/10].map Real.sin) (2 * 2 - 1) [some 1] [some (Real.cos (2/10))] false none =
    .ok (.pw p) ∧ ∀ t ∈ Ioc (0 : ℝ) (2/10), |Real.sin t - p.call t| ≤ (1/10) ^ 3 * (2/10) := by
  have hs : [(0 : ℝ), 1/10, 2/10].Pairwise (· < ·) := by norm_num
  obtain ⟨p, h⟩ := C24_enough_points (inv := adjInv ℝ) (S := exactScipy ℝ) (x := [(0 : ℝ), 1/10, 2/10]) (y := [0, 1/10, 2/10].map Real.sin)
    (n := 2 * 2 - 1) (lo := [some 1]) (hi := [some (Real.cos (2/10))]) (extrap := none) exactScipy_ok hs (by simp) (by simp) (by omega)
    (by simp) (by simp) (by simp [bcCount]) (by simp)
  refine ⟨p, h, fun t ht => ?_⟩
  have := C102_smooth_clamped (F := exSin) (lo := [1]) (hi := [Real.cos (2/10)]) (d := 1/10) adjInv_ok exactScipy_ok hs (m := 2) (by omega) (by simp)
    (by simp) (by simp) h (exSin_ok _ _) (Real.continuous_sin.intervalIntegrable _ _) (by
      intro q hq
      obtain rfl : q = 0 := by omega
      simp [exSin]) (by
      intro q hq
      obtain rfl : q = 0 := by omega
      simp [exSin]) (by
      intro i hi
      simp only [List.length_cons, List.length_nil] at hi
      obtain rfl | rfl : i = 0 ∨ i = 1 := by omega
      all_goals norm_num) 0 (by omega) t (by simpa using ht)
  refine this.trans ?_
  have hI : ∫ r in (0 : ℝ)..(2/10), |exSin (2 * 2) r| ≤ 2/10 := by
    have : ∫ r in (0 : ℝ)..(2/10), |exSin (2 * 2) r| ≤ ∫ r in (0 : ℝ)..(2/10), 1 :=
      intervalIntegral.integral_mono_on (by norm_num) (Real.continuous_sin.abs.intervalIntegrable _ _) intervalIntegrable_const
        fun r _ => Real.abs_sin_le_one r
    simpa using this
  norm_num at hI ⊢
  linarith

end Npplus
