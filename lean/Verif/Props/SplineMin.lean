import Verif.Lemmas.SplineMin
import Verif.Props.SplineIff
import Verif.Props.PwMisc

/-!
# Minimum property of splines of odd degree (npplus/pwpoly.py: spline)
-/

set_option linter.unusedSectionVars false
namespace Npplus
open Spec Set MeasureTheory Spl

variable {inv : InvFun ℝ} {S : Scipy ℝ} {x y : List ℝ} {m : ℕ} {extrap : Option (ℕ × ℕ)} {p : PwPoly ℝ ℝ}

theorem spline_inside (hinv : InvOK inv) (hS : ScipyOK S) (hs : x.Pairwise (· < ·)) (hm : 1 ≤ m) {lo hi : List (Option ℝ)}
    (h : spline inv S x y (2 * m - 1) lo hi false extrap = .ok (.pw p)) :
    2 ≤ x.length ∧ WF p ∧ p.xk = x ∧ p.n ≤ 2 * m ∧ (∀ t, x.getD 0 0 ≤ t → inside p 0 t = p.call t) ∧
      (∀ j < x.length, p.call (x.getD j 0) = y.getD j 0) ∧
      (∀ j, 0 < j → j + 1 < x.length → ∀ k, k + 2 ≤ 2 * m → MatchAt p k j) := by
  obtain ⟨hx, -, -, -, -, -⟩ := spline_nonper hs h
  obtain ⟨hw, hxk, hdeg, hval, hc, hmatch⟩ := C24_spline hinv hS hs h
  refine ⟨hx, hw, hxk, ?_, fun t ht => ?_, fun j hj => ?_, fun j h0 h1 k hk => hmatch j h0 h1 k (by omega)⟩
  · unfold PwPoly.deg at hdeg
    omega
  · exact inside_zero hw (hc 0 (by rw [hxk]; omega)) (by rwa [hxk])
  · rw [List.getD_eq_getElem _ _ hj]
    exact hval j hj

theorem parts_zero {m : ℕ} {Q G : ℕ → ℝ → ℝ} {t : ℝ} (hv : G 0 t = Q 0 t)
    (h : ∀ k, 1 ≤ k → k < m → Q (2 * m - 1 - k) t = 0 ∨ G k t = Q k t) : parts m Q G t = 0 := by
  unfold parts
  refine Finset.sum_eq_zero fun r hr => ?_
  have hr := Finset.mem_range.1 hr
  rcases Nat.eq_zero_or_pos (m - 1 - r) with e | e
  · rw [e, hv]
    ring
  · rcases h (m - 1 - r) e (by omega) with h | h
    · rw [show 2 * m - 1 - (m - 1 - r) = m + r by omega] at h
      rw [h]
      ring
    · rw [h]
      ring

theorem spline_min (hinv : InvOK inv) (hS : ScipyOK S) (hs : x.Pairwise (· < ·)) (hm : 1 ≤ m) {lo hi : List (Option ℝ)}
    (h : spline inv S x y (2 * m - 1) lo hi false extrap = .ok (.pw p)) {G : ℕ → ℝ → ℝ}
    (hG : SquareIntegrable m G (x.getD 0 0) (x.getD (x.length - 1) 0)) (hi' : Interpolates x y G)
    (h0 : ∀ k, 1 ≤ k → k < m → pieceDeriv p 1 (x.getD 0 0) (2 * m - 1 - k) = 0 ∨ G k (x.getD 0 0) = pieceDeriv p 1 (x.getD 0 0) k)
    (h1 : ∀ k, 1 ≤ k → k < m → pieceDeriv p (x.length - 1) (x.getD (x.length - 1) 0) (2 * m - 1 - k) = 0 ∨
      G k (x.getD (x.length - 1) 0) = pieceDeriv p (x.length - 1) (x.getD (x.length - 1) 0) k) :
    (∫ t in (x.getD 0 0)..(x.getD (x.length - 1) 0), G m t ^ 2 =
      (∫ t in (x.getD 0 0)..(x.getD (x.length - 1) 0), (p.deriv m).call t ^ 2) +
        ∫ t in (x.getD 0 0)..(x.getD (x.length - 1) 0), (G m t - (p.deriv m).call t) ^ 2) ∧
    (∫ t in (x.getD 0 0)..(x.getD (x.length - 1) 0), G m t ^ 2 ≤ ∫ t in (x.getD 0 0)..(x.getD (x.length - 1) 0), (p.deriv m).call t ^ 2 →
      SquareIntegrable m (fun k t => G k t - inside p k t) (x.getD 0 0) (x.getD (x.length - 1) 0) ∧
      ∀ᵐ t ∂(volume.restrict (Icc (x.getD 0 0) (x.getD (x.length - 1) 0))), G m t - inside p m t = 0) := by
  obtain ⟨hx, hw, hxk, hn, hin, hv, hM⟩ := spline_inside hinv hS hs hm h
  subst hxk
  have hl1 : pieceDeriv p 1 (p.xk.getD 0 0) 0 = y.getD 0 0 := by
    rw [← hv 0 (by omega), ← hin _ le_rfl]
    unfold inside
    rw [if_pos le_rfl]
  have hr1 : pieceDeriv p (p.xk.length - 1) (p.xk.getD (p.xk.length - 1) 0) 0 = y.getD (p.xk.length - 1) 0 := by
    obtain ⟨i, hi⟩ : ∃ i, i + 2 = p.xk.length := ⟨p.xk.length - 2, by omega⟩
    have ei : p.xk.length - 1 = i + 1 := by omega
    rw [← hv (p.xk.length - 1) (by omega), ← hin _ (sorted_le hw.inc (by omega) (by omega)), ei]
    exact (inside_Ioc hw (by omega) ⟨sorted_lt hw.inc (by omega) (by omega), le_rfl⟩).symm
  refine min_property hw hx hm hn hM hG (fun j hj => ?_) ?_
  · rw [hi' j hj, hin _ (sorted_le hw.inc (by omega) hj), hv j hj]
  · rw [parts_zero (m := m) (by rw [hi' _ (by omega)]; exact hr1.symm) h1, parts_zero (m := m) (by rw [hi' _ (by omega)]; exact hl1.symm) h0]

/-- **C101**, the spline itself is one of the functions compared: it has a square integrable derivative of order `m`. -/
theorem C101_admissible (hinv : InvOK inv) (hS : ScipyOK S) (hs : x.Pairwise (· < ·)) (hm : 1 ≤ m) {lo hi : List (Option ℝ)}
    (h : spline inv S x y (2 * m - 1) lo hi false extrap = .ok (.pw p)) :
    ∃ H, SquareIntegrable m H (x.getD 0 0) (x.getD (x.length - 1) 0) ∧ Interpolates x y H ∧
      (∀ t ∈ Icc (x.getD 0 0) (x.getD (x.length - 1) 0), H 0 t = p.call t) ∧
      ∀ k, ∀ t ∈ Ioc (x.getD 0 0) (x.getD (x.length - 1) 0), H k t = (p.deriv k).call t := by
  obtain ⟨hx, hw, hxk, -, h0, hv, hM⟩ := spline_inside hinv hS hs hm h
  subst hxk
  refine ⟨inside p, inside_squareIntegrable hw hx hm fun j h1 h2 k hk => hM j h1 h2 k (by omega), fun j hj => ?_,
    fun t ht => h0 t ht.1, fun k t ht => inside_of_lt hw ht.1⟩
  rw [h0 _ (sorted_le hw.inc (by omega) hj), hv j hj]

/-- **C101**, any boundary conditions `lo`, `hi`: if the competitor `G` agrees with the spline in its derivatives of order 1, ..., m-1
at each end, except in those whose conjugate derivative (of order 2m-1 minus that order) of the spline is zero there, then the
integral of the square of the derivative of order `m` of `G` is that of the spline plus that of the difference. -/
theorem C101_pythagoras (hinv : InvOK inv) (hS : ScipyOK S) (hs : x.Pairwise (· < ·)) (hm : 1 ≤ m) {lo hi : List (Option ℝ)}
    (h : spline inv S x y (2 * m - 1) lo hi false extrap = .ok (.pw p)) {G : ℕ → ℝ → ℝ}
    (hG : SquareIntegrable m G (x.getD 0 0) (x.getD (x.length - 1) 0)) (hi' : Interpolates x y G)
    (h0 : ∀ k, 1 ≤ k → k < m → pieceDeriv p 1 (x.getD 0 0) (2 * m - 1 - k) = 0 ∨ G k (x.getD 0 0) = pieceDeriv p 1 (x.getD 0 0) k)
    (h1 : ∀ k, 1 ≤ k → k < m → pieceDeriv p (x.length - 1) (x.getD (x.length - 1) 0) (2 * m - 1 - k) = 0 ∨
      G k (x.getD (x.length - 1) 0) = pieceDeriv p (x.length - 1) (x.getD (x.length - 1) 0) k) :
    ∫ t in (x.getD 0 0)..(x.getD (x.length - 1) 0), G m t ^ 2 =
      (∫ t in (x.getD 0 0)..(x.getD (x.length - 1) 0), (p.deriv m).call t ^ 2) +
        ∫ t in (x.getD 0 0)..(x.getD (x.length - 1) 0), (G m t - (p.deriv m).call t) ^ 2 := by
  exact (spline_min hinv hS hs hm h hG hi' h0 h1).1

theorem natural_ends (hinv : InvOK inv) (hS : ScipyOK S) (hs : x.Pairwise (· < ·)) (hm : 1 ≤ m)
    (h : spline inv S x y (2 * m - 1) [] [] false extrap = .ok (.pw p)) :
    (∀ k, 1 ≤ k → k < m → pieceDeriv p 1 (x.getD 0 0) (2 * m - 1 - k) = 0) ∧
    ∀ k, 1 ≤ k → k < m → pieceDeriv p (x.length - 1) (x.getD (x.length - 1) 0) (2 * m - 1 - k) = 0 := by
  obtain ⟨lo', hi'', C, b1, b2⟩ := C25_boundary hinv hS hs h
  have hC := C26_unique C (default_completed (V := ℝ) (2 * m - 1))
  have e1 : (2 * m - 1 - 1) / 2 = m - 1 := by omega
  have e2 : (2 * m - 1) / 2 = m - 1 := by omega
  rw [e1, e2] at hC
  have z0 : ∀ k, 1 ≤ k → k < m → pieceDeriv p 1 (x.getD 0 0) (2 * m - 1 - k) = 0 := by
    intro k h1 h2
    have := b1 (2 * m - 2 - k) 0 (by rw [(hC _).1, topZero_item, if_pos (by omega)])
    rwa [show 2 * m - 2 - k + 1 = 2 * m - 1 - k by omega, smul_zero] at this
  have z1 : ∀ k, 1 ≤ k → k < m → pieceDeriv p (x.length - 1) (x.getD (x.length - 1) 0) (2 * m - 1 - k) = 0 := by
    intro k h1 h2
    have := b2 (2 * m - 2 - k) 0 (by rw [(hC _).2, topZero_item, if_pos (by omega)])
    rwa [show 2 * m - 2 - k + 1 = 2 * m - 1 - k by omega, smul_zero] at this
  exact ⟨z0, z1⟩

/-- **C101**, the default boundary conditions: of all functions with a square integrable derivative of order `m` which take the values
`y` at `x`, the spline of degree 2m-1 has the least integral of the square of that derivative, and no other function has it. -/
theorem C101_natural (hinv : InvOK inv) (hS : ScipyOK S) (hs : x.Pairwise (· < ·)) (hm : 1 ≤ m)
    (h : spline inv S x y (2 * m - 1) [] [] false extrap = .ok (.pw p)) {G : ℕ → ℝ → ℝ}
    (hG : SquareIntegrable m G (x.getD 0 0) (x.getD (x.length - 1) 0)) (hi' : Interpolates x y G) :
    ∫ t in (x.getD 0 0)..(x.getD (x.length - 1) 0), (p.deriv m).call t ^ 2 ≤ ∫ t in (x.getD 0 0)..(x.getD (x.length - 1) 0), G m t ^ 2 ∧
    (∫ t in (x.getD 0 0)..(x.getD (x.length - 1) 0), G m t ^ 2 = ∫ t in (x.getD 0 0)..(x.getD (x.length - 1) 0), (p.deriv m).call t ^ 2 →
      ∀ t ∈ Icc (x.getD 0 0) (x.getD (x.length - 1) 0), G 0 t = p.call t) := by
  obtain ⟨hx, hy, -, -, -, -⟩ := spline_nonper hs h
  obtain ⟨-, hw, hxk, -, hin, hv, -⟩ := spline_inside hinv hS hs hm h
  have hlen : m ≤ x.length := by
    by_contra hc
    have := (C24_default_iff (inv := inv) (extrap := extrap) hS hs hx hy (n := 2 * m - 1) (by omega)).2 (by omega)
    rw [this] at h
    cases h
  obtain ⟨z0, z1⟩ := natural_ends hinv hS hs hm h
  obtain ⟨hpy, hae⟩ := spline_min hinv hS hs hm h hG hi' (fun k h1 h2 => Or.inl (z0 k h1 h2)) (fun k h1 h2 => Or.inl (z1 k h1 h2))
  subst hxk
  have hle := sorted_le hw.inc (Nat.zero_le (p.xk.length - 1)) (by omega)
  have hnn : 0 ≤ ∫ t in (p.xk.getD 0 0)..(p.xk.getD (p.xk.length - 1) 0), (G m t - (p.deriv m).call t) ^ 2 :=
    intervalIntegral.integral_nonneg hle fun t _ => sq_nonneg _
  refine ⟨by linarith, fun heq t ht => ?_⟩
  obtain ⟨he, hz⟩ := hae heq.le
  have := zero_of_zeros hm he p.xk hw.inc hlen (inside_sub_knots hw fun j hj => by
    rw [hi' j hj, hin _ (sorted_le hw.inc (by omega) hj), hv j hj]) hz t ht
  rw [← hin t ht.1]
  linarith

theorem clamped_ends (hinv : InvOK inv) (hS : ScipyOK S) (hs : x.Pairwise (· < ·)) {lo hi : List ℝ} (hlo : lo.length = m - 1)
    (hhi : hi.length = m - 1) (h : spline inv S x y (2 * m - 1) (lo.map some) (hi.map some) false extrap = .ok (.pw p)) {G : ℕ → ℝ → ℝ}
    (h0 : ∀ q < m - 1, G (q + 1) (x.getD 0 0) = (q + 1).factorial * lo.getD q 0)
    (h1 : ∀ q < m - 1, G (q + 1) (x.getD (x.length - 1) 0) = (q + 1).factorial * hi.getD q 0) :
    (∀ k, 1 ≤ k → k < m → G k (x.getD 0 0) = pieceDeriv p 1 (x.getD 0 0) k) ∧
    ∀ k, 1 ≤ k → k < m → G k (x.getD (x.length - 1) 0) = pieceDeriv p (x.length - 1) (x.getD (x.length - 1) 0) k := by
  obtain ⟨b1, b2⟩ := C25_given hinv hS hs h
  have item : ∀ (l : List ℝ) q, q < l.length → bcItem (l.map some) q = some (l.getD q 0) := by
    intro l q hq
    unfold bcItem
    simp [List.getD_eq_getElem?_getD, hq]
  have z0 : ∀ k, 1 ≤ k → k < m → G k (x.getD 0 0) = pieceDeriv p 1 (x.getD 0 0) k := by
    intro k h3 h4
    have := b1 (k - 1) _ (item lo (k - 1) (by omega))
    have h5 := h0 (k - 1) (by omega)
    rw [Nat.sub_add_cancel h3] at this h5
    rw [this, h5, smul_eq_mul]
  have z1 : ∀ k, 1 ≤ k → k < m → G k (x.getD (x.length - 1) 0) = pieceDeriv p (x.length - 1) (x.getD (x.length - 1) 0) k := by
    intro k h3 h4
    have := b2 (k - 1) _ (item hi (k - 1) (by omega))
    have h5 := h1 (k - 1) (by omega)
    rw [Nat.sub_add_cancel h3] at this h5
    rw [this, h5, smul_eq_mul]
  exact ⟨z0, z1⟩

/-- **C101**, the derivatives of order 1, ..., m-1 given at both ends (`lo`, `hi` are the Taylor coefficients, see C25): the spline of
degree 2m-1 has the least integral of the square of the derivative of order `m` of all functions with these values and derivatives, and
no other function has it. -/
theorem C101_clamped (hinv : InvOK inv) (hS : ScipyOK S) (hs : x.Pairwise (· < ·)) (hm : 1 ≤ m) {lo hi : List ℝ} (hlo : lo.length = m - 1)
    (hhi : hi.length = m - 1) (h : spline inv S x y (2 * m - 1) (lo.map some) (hi.map some) false extrap = .ok (.pw p)) {G : ℕ → ℝ → ℝ}
    (hG : SquareIntegrable m G (x.getD 0 0) (x.getD (x.length - 1) 0)) (hi' : Interpolates x y G)
    (h0 : ∀ q < m - 1, G (q + 1) (x.getD 0 0) = (q + 1).factorial * lo.getD q 0)
    (h1 : ∀ q < m - 1, G (q + 1) (x.getD (x.length - 1) 0) = (q + 1).factorial * hi.getD q 0) :
    ∫ t in (x.getD 0 0)..(x.getD (x.length - 1) 0), (p.deriv m).call t ^ 2 ≤ ∫ t in (x.getD 0 0)..(x.getD (x.length - 1) 0), G m t ^ 2 ∧
    (∫ t in (x.getD 0 0)..(x.getD (x.length - 1) 0), G m t ^ 2 = ∫ t in (x.getD 0 0)..(x.getD (x.length - 1) 0), (p.deriv m).call t ^ 2 →
      ∀ t ∈ Icc (x.getD 0 0) (x.getD (x.length - 1) 0), G 0 t = p.call t) := by
  obtain ⟨hx, hw, hxk, -, hin, hv, -⟩ := spline_inside hinv hS hs hm h
  obtain ⟨z0, z1⟩ := clamped_ends hinv hS hs hlo hhi h h0 h1
  obtain ⟨hpy, hae⟩ := spline_min hinv hS hs hm h hG hi' (fun k h1 h2 => Or.inr (z0 k h1 h2)) (fun k h1 h2 => Or.inr (z1 k h1 h2))
  subst hxk
  have hle := sorted_le hw.inc (Nat.zero_le (p.xk.length - 1)) (by omega)
  have hnn : 0 ≤ ∫ t in (p.xk.getD 0 0)..(p.xk.getD (p.xk.length - 1) 0), (G m t - (p.deriv m).call t) ^ 2 :=
    intervalIntegral.integral_nonneg hle fun t _ => sq_nonneg _
  refine ⟨by linarith, fun heq t ht => ?_⟩
  obtain ⟨he, hz⟩ := hae heq.le
  have := zero_of_initial he hm (fun k hk => by
    rcases Nat.eq_zero_or_pos k with rfl | h3
    · rw [hi' 0 (by omega), hin _ le_rfl, hv 0 (by omega)]
      ring
    · rw [z0 k h3 hk]
      unfold inside
      rw [if_pos le_rfl]
      ring) hz t ht
  rw [← hin t ht.1]
  linarith

/-- **C27**: the first interval of a periodic spline begins with the first value -/
theorem C27_start {K : Type} [Field K] [LinearOrder K] [IsStrictOrderedRing K] {V : Type} [AddCommGroup V] [Module K V]
    {inv : InvFun K} {S : Scipy K} {x : List K} {y : List V} {n : ℕ} {lo hi : List (Option V)} {extrap : Option (ℕ × ℕ)}
    (hinv : InvOK inv) (hS : ScipyOK S) (hs : x.Pairwise (· < ·)) {P : PerPwPoly K V}
    (h : spline inv S x y n lo hi true extrap = .ok (.per P)) : pieceDeriv P.base 1 (x.getD 0 0) 0 = y.getD 0 0 := by
  obtain ⟨hx, hy, hn, -, -, -, h⟩ := spline_checks hs h
  cases hq : Spl.periodic inv S x y n with
  | error err => simp [hq, Except.map] at h
  | ok Q =>
  simp [hq, Except.map] at h
  subst h
  obtain ⟨z, e, y', hy', hbase, hper, sys, hwrap⟩ := periodic_ok hinv hS hs hx hy hn hq
  rw [hbase, seg_left (j := 0) (by omega), inner_getD_zero, hy', List.getD_eq_getElem?_getD, List.getElem?_set_ne (by omega),
    ← List.getD_eq_getElem?_getD]
  simp

/-- a periodic spline within its period -/
theorem periodic_inside (hinv : InvOK inv) (hS : ScipyOK S) (hs : x.Pairwise (· < ·)) (hm : 1 ≤ m) {P : PerPwPoly ℝ ℝ} {lo hi : List (Option ℝ)}
    (h : spline inv S x y (2 * m - 1) lo hi true extrap = .ok (.per P)) {F : ℝ → ℝ} (hF : ∀ t, P.call t = .ok (F t)) :
    2 ≤ x.length ∧ WF P.base ∧ P.base.xk = x ∧ P.base.n ≤ 2 * m ∧
    (∀ t ∈ Icc (x.getD 0 0) (x.getD (x.length - 1) 0), inside P.base 0 t = F t) ∧
    (∀ j, 0 < j → j + 1 < x.length → ∀ k, k + 2 ≤ 2 * m → MatchAt P.base k j) ∧
    ∀ k, k + 2 ≤ 2 * m → pieceDeriv P.base (x.length - 1) (x.getD (x.length - 1) 0) k = pieceDeriv P.base 1 (x.getD 0 0) k := by
  obtain ⟨hx, -, -, -, -, -, -⟩ := spline_checks hs h
  obtain ⟨per, hper, eper, hper0, hw, hxk, hdeg, -, hv, hvl, hcall, hM, hends⟩ := C27_periodic hinv hS hs h
  subst hxk
  set p := P.base with hpdef
  have hn : p.n ≤ 2 * m := by
    unfold PwPoly.deg at hdeg
    omega
  have hlt : p.xk.getD 0 0 < p.xk.getD (p.xk.length - 1) 0 := by linarith
  -- the values
  have hinl : inside p 0 (p.xk.getD 0 0) = pieceDeriv p 1 (p.xk.getD 0 0) 0 := by
    unfold inside
    rw [if_pos le_rfl]
  obtain ⟨i, hi2⟩ : ∃ i, i + 2 = p.xk.length := ⟨p.xk.length - 2, by omega⟩
  have ei : p.xk.length - 1 = i + 1 := by omega
  have hinr : ∀ k, inside p k (p.xk.getD (p.xk.length - 1) 0) = pieceDeriv p (p.xk.length - 1) (p.xk.getD (p.xk.length - 1) 0) k := by
    intro k
    rw [ei]
    exact inside_Ioc hw (by omega) ⟨sorted_lt hw.inc (by omega) (by omega), le_rfl⟩
  have hFin : ∀ t ∈ Ioo (p.xk.getD 0 0) (p.xk.getD (p.xk.length - 1) 0), inside p 0 t = F t := by
    intro t ht
    obtain ⟨i, hi, _⟩ := existsUnique_inPiece hw.inc t
    have := hcall t ht.1 ht.2 i hi
    rw [hF] at this
    rw [inside_of_lt hw ht.1, Except.ok.inj this, pieceVal_eq]
    exact call_eq_piece hw hi
  have hF0 : F (p.xk.getD 0 0) = y.getD 0 0 := by
    have := hv 0 (by omega)
    rw [hF] at this
    exact Except.ok.inj this
  have hFl : F (p.xk.getD (p.xk.length - 1) 0) = y.getD 0 0 := by
    rw [hF] at hvl
    exact Except.ok.inj hvl
  have hin0 : inside p 0 (p.xk.getD 0 0) = y.getD 0 0 := by rw [hinl, C27_start hinv hS hs h]
  have hinl' : inside p 0 (p.xk.getD (p.xk.length - 1) 0) = y.getD 0 0 := by
    rw [hinr 0, hends 0 (by omega), C27_start hinv hS hs h]
  have hI : ∀ t ∈ Icc (p.xk.getD 0 0) (p.xk.getD (p.xk.length - 1) 0), inside p 0 t = F t := by
    intro t ht
    rcases eq_or_lt_of_le ht.1 with rfl | h1
    · rw [hin0, hF0]
    rcases eq_or_lt_of_le ht.2 with rfl | h2
    · rw [hinl', hFl]
    exact hFin t ⟨h1, h2⟩
  exact ⟨hx, hw, rfl, hn, hI, fun j h0 h1 k hk => hM j h0 h1 k (by omega), fun k hk => hends k (by omega)⟩

/-- **C101**, periodic splines: of all functions with a square integrable derivative of order `m` and the period of the data, which take
the values `y` at `x`, the periodic spline of degree 2m-1 has the least integral over a period of the square of that derivative, and no
other function has it.  `F` and `D` are the functions `P(t)` and `P.deriv(m)(t)`. -/
theorem C101_periodic (hinv : InvOK inv) (hS : ScipyOK S) (hs : x.Pairwise (· < ·)) (hm : 1 ≤ m) {P : PerPwPoly ℝ ℝ} {lo hi : List (Option ℝ)}
    (h : spline inv S x y (2 * m - 1) lo hi true extrap = .ok (.per P)) {F D : ℝ → ℝ} (hF : ∀ t, P.call t = .ok (F t))
    (hD : ∀ t, (P.deriv m).bind (PerPwPoly.call · t) = .ok (D t)) {G : ℕ → ℝ → ℝ}
    (hG : SquareIntegrable m G (x.getD 0 0) (x.getD (x.length - 1) 0)) (hi' : ∀ j, j + 1 < x.length → G 0 (x.getD j 0) = y.getD j 0)
    (hp : ∀ k < m, G k (x.getD (x.length - 1) 0) = G k (x.getD 0 0)) :
    ∫ t in (x.getD 0 0)..(x.getD (x.length - 1) 0), D t ^ 2 ≤ ∫ t in (x.getD 0 0)..(x.getD (x.length - 1) 0), G m t ^ 2 ∧
    (∫ t in (x.getD 0 0)..(x.getD (x.length - 1) 0), G m t ^ 2 = ∫ t in (x.getD 0 0)..(x.getD (x.length - 1) 0), D t ^ 2 →
      ∀ t ∈ Icc (x.getD 0 0) (x.getD (x.length - 1) 0), G 0 t = F t) := by
  obtain ⟨hx, -, -, -, -, -, -⟩ := spline_checks hs h
  obtain ⟨per, hper, eper, hper0, hw, hxk, hdeg, -, hv, hvl, hcall, hM, hends⟩ := C27_periodic hinv hS hs h
  subst hxk
  set p := P.base with hpdef
  have hn : p.n ≤ 2 * m := by
    unfold PwPoly.deg at hdeg
    omega
  have hlt : p.xk.getD 0 0 < p.xk.getD (p.xk.length - 1) 0 := by linarith
  -- the derivative
  have hDp : ∀ t ∈ Ioo (p.xk.getD 0 0) (p.xk.getD (p.xk.length - 1) 0), D t = (p.deriv m).call t := by
    intro t ht
    obtain ⟨hw', hxk', -, hd⟩ := C09_deriv hw m
    obtain ⟨P', per', hnew, -, -, -, -, -, hc⟩ := (C23_periodic hw').2 (by rw [hxk']; exact hx)
    obtain ⟨i, hi, _⟩ := existsUnique_inPiece hw.inc t
    have hi1 : 1 ≤ i := by
      by_contra h0
      have := hi.2.2 0 (by omega) (by omega)
      rw [← List.getD_eq_getElem _ 0 (by omega)] at this
      exact absurd ht.1 (not_lt.2 this)
    have h1 := (hc t (by rw [hxk']; exact ht.1.le) (by rw [hxk']; exact ht.2) i (by rwa [hxk'])).1
    have h2 := hD t
    unfold PerPwPoly.deriv at h2
    rw [hnew] at h2
    simp only [Except.bind] at h2
    rw [h1, Nat.max_eq_left hi1] at h2
    rw [call_eq_piece hw' (by rwa [hxk']), ← pieceVal_eq]
    exact (Except.ok.inj h2).symm
  have hint : ∫ t in (p.xk.getD 0 0)..(p.xk.getD (p.xk.length - 1) 0), D t ^ 2 =
      ∫ t in (p.xk.getD 0 0)..(p.xk.getD (p.xk.length - 1) 0), (p.deriv m).call t ^ 2 := by
    rw [intervalIntegral.integral_of_le hlt.le, intervalIntegral.integral_of_le hlt.le, integral_Ioc_eq_integral_Ioo,
      integral_Ioc_eq_integral_Ioo]
    exact setIntegral_congr_fun measurableSet_Ioo fun t ht => by simp only [hDp t ht]
  rw [hint]
  -- the values
  have hinl : inside p 0 (p.xk.getD 0 0) = pieceDeriv p 1 (p.xk.getD 0 0) 0 := by
    unfold inside
    rw [if_pos le_rfl]
  obtain ⟨i, hi2⟩ : ∃ i, i + 2 = p.xk.length := ⟨p.xk.length - 2, by omega⟩
  have ei : p.xk.length - 1 = i + 1 := by omega
  have hinr : ∀ k, inside p k (p.xk.getD (p.xk.length - 1) 0) = pieceDeriv p (p.xk.length - 1) (p.xk.getD (p.xk.length - 1) 0) k := by
    intro k
    rw [ei]
    exact inside_Ioc hw (by omega) ⟨sorted_lt hw.inc (by omega) (by omega), le_rfl⟩
  have hFin : ∀ t ∈ Ioo (p.xk.getD 0 0) (p.xk.getD (p.xk.length - 1) 0), inside p 0 t = F t := by
    intro t ht
    obtain ⟨i, hi, _⟩ := existsUnique_inPiece hw.inc t
    have := hcall t ht.1 ht.2 i hi
    rw [hF] at this
    rw [inside_of_lt hw ht.1, Except.ok.inj this, pieceVal_eq]
    exact call_eq_piece hw hi
  have hF0 : F (p.xk.getD 0 0) = y.getD 0 0 := by
    have := hv 0 (by omega)
    rw [hF] at this
    exact Except.ok.inj this
  have hFl : F (p.xk.getD (p.xk.length - 1) 0) = y.getD 0 0 := by
    rw [hF] at hvl
    exact Except.ok.inj hvl
  have hin0 : inside p 0 (p.xk.getD 0 0) = y.getD 0 0 := by rw [hinl, C27_start hinv hS hs h]
  have hinl' : inside p 0 (p.xk.getD (p.xk.length - 1) 0) = y.getD 0 0 := by
    rw [hinr 0, hends 0 (by omega), C27_start hinv hS hs h]
  have hI : ∀ t ∈ Icc (p.xk.getD 0 0) (p.xk.getD (p.xk.length - 1) 0), inside p 0 t = F t := by
    intro t ht
    rcases eq_or_lt_of_le ht.1 with rfl | h1
    · rw [hin0, hF0]
    rcases eq_or_lt_of_le ht.2 with rfl | h2
    · rw [hinl', hFl]
    exact hFin t ⟨h1, h2⟩
  have hknot : ∀ j < p.xk.length, G 0 (p.xk.getD j 0) = inside p 0 (p.xk.getD j 0) := by
    intro j hj
    rcases Nat.lt_or_ge (j + 1) p.xk.length with h1 | h1
    · have := hv j h1
      rw [hF] at this
      rw [hi' j h1, hI _ ⟨sorted_le hw.inc (by omega) hj, sorted_le hw.inc (by omega) (by omega)⟩, Except.ok.inj this]
    · obtain rfl : j = p.xk.length - 1 := by omega
      rw [hp 0 (by omega), hi' 0 (by omega), hinl']
  have hl1 : pieceDeriv p 1 (p.xk.getD 0 0) 0 = G 0 (p.xk.getD 0 0) := by rw [hknot 0 (by omega), hinl]
  obtain ⟨hpy, hae⟩ := min_property (m := m) hw hx hm hn (fun j h0 h1 k hk => hM j h0 h1 k (by omega)) hG hknot (by
    unfold parts
    refine Finset.sum_congr rfl fun r hr => ?_
    have hr := Finset.mem_range.1 hr
    have e2 := hends (m - 1 - r) (by omega)
    beta_reduce
    rcases Nat.lt_or_ge (r + 1) m with h1 | h1
    · have e1 := hends (m + r) (by omega)
      rw [e1, e2, hp _ (by omega)]
    · have e : m - 1 - r = 0 := by omega
      rw [e] at e2 ⊢
      rw [e2, hl1, hp 0 (by omega), sub_self]
      simp)
  have hnn : 0 ≤ ∫ t in (p.xk.getD 0 0)..(p.xk.getD (p.xk.length - 1) 0), (G m t - (p.deriv m).call t) ^ 2 :=
    intervalIntegral.integral_nonneg hlt.le fun t _ => sq_nonneg _
  refine ⟨by linarith, fun heq t ht => ?_⟩
  obtain ⟨he, hz⟩ := hae heq.le
  have := const_of_periodic hlt he hm (fun k hk => by
    have e : inside p k (p.xk.getD 0 0) = pieceDeriv p 1 (p.xk.getD 0 0) k := by
      unfold inside
      rw [if_pos le_rfl]
    rw [hp k hk, hinr k, hends k (by omega), e]) hz t ht
  rw [← hI t ht]
  have h0 := hknot 0 (by omega)
  linarith

/-- the parabola through (0, 0), (1, 1), (2, 0) -/
noncomputable def exBump : ℕ → ℝ → ℝ := fun k t => if k = 0 then 2 * t - t ^ 2 else if k = 1 then 2 - 2 * t else -2

theorem exBump_ok : SquareIntegrable 2 exBump 0 2 := by
  have h0 : exBump 0 = fun t => 2 * t - t ^ 2 := by funext t; simp [exBump]
  have h1 : exBump 1 = fun t => 2 - 2 * t := by funext t; simp [exBump]
  have h2 : exBump 2 = fun _ => -2 := by funext t; simp [exBump]
  refine ⟨fun k hk => ?_, fun k hk x _ => ?_, ⟨∅, Set.countable_empty, fun x _ => ?_⟩, ?_⟩
  · obtain rfl | rfl : k = 0 ∨ k = 1 := by omega
    · rw [h0]; fun_prop
    · rw [h1]; fun_prop
  · obtain rfl : k = 0 := by omega
    rw [h0, h1]
    have := ((hasDerivAt_id x).const_mul 2).sub ((hasDerivAt_id x).pow 2)
    exact this.congr_deriv (by simp)
  · rw [h1, h2]
    have := ((hasDerivAt_id x).const_mul 2).const_sub 2
    exact this.congr_deriv (by simp)
  · rw [h2]
    exact memLp_const _

/-- the cubic spline through these points has a smaller integral of the square of the second derivative than the parabola -/
example : ∃ p, spline (adjInv ℝ) (exactScipy ℝ) [0, 1, 2] [(0 : ℝ), 1, 0] (2 * 2 - 1) [] [] false none = .ok (.pw p) ∧
    ∫ t in (0 : ℝ)..2, (p.deriv 2).call t ^ 2 ≤ 8 := by
  have hs : [(0 : ℝ), 1, 2].Pairwise (· < ·) := by norm_num
  obtain ⟨p, h⟩ := (C24_default_iff (inv := adjInv ℝ) (S := exactScipy ℝ) (x := [0, 1, 2]) (y := [(0 : ℝ), 1, 0]) (n := 2 * 2 - 1) (extrap := none)
    exactScipy_ok hs (by simp) (by simp) (by omega)).1 (by simp)
  refine ⟨p, h, ?_⟩
  have := (C101_natural adjInv_ok exactScipy_ok hs (m := 2) (by omega) h (G := exBump) (by simpa using exBump_ok) (by
    intro j hj
    simp only [List.length_cons, List.length_nil] at hj
    obtain rfl | rfl | rfl : j = 0 ∨ j = 1 ∨ j = 2 := by omega
    all_goals norm_num [exBump])).1
  simp only [List.length_cons, List.length_nil, List.getD_cons_zero, Nat.zero_add, Nat.reduceAdd, Nat.reduceSub, List.getD_cons_succ] at this
  refine this.trans (le_of_eq ?_)
  simp [exBump]
  norm_num

end Npplus
