import Verif.Props.SplineIff

/-!
# C119: which end gets the default boundary conditions
-/

set_option linter.unusedSectionVars false

namespace Npplus

open Spec Finset PwPoly Spl

variable {K : Type} [Field K] [LinearOrder K] [IsStrictOrderedRing K] {V : Type} [AddCommGroup V] [Module K V]
  {inv : InvFun K} {S : Scipy K} {x : List K} {y : List V} {n : ℕ}
  {extrap : Option (ℕ × ℕ)} {p : PwPoly K V}

/-- **C119** — increasing `x`, no boundary conditions: the derivatives of order `(n-1)/2+1,…,n-1` (that is `n/2` of them)
vanish at `x[0]`, those of order `n/2+1,…,n-1` at `x[-1]`: `(n-1)//2` each, and one more at `x[0]` for even `n`. -/
theorem C119_increasing (hinv : InvOK inv) (hS : ScipyOK S) (hs : x.Pairwise (· < ·))
    (h : spline inv S x y n [] [] false extrap = .ok (.pw p)) :
    (∀ k, (n - 1) / 2 < k → k ≤ n - 1 → pieceDeriv p 1 (x.getD 0 0) k = 0) ∧
      ∀ k, n / 2 < k → k ≤ n - 1 → pieceDeriv p (x.length - 1) (x.getD (x.length - 1) 0) k = 0 := by
  obtain ⟨lo', hi', C, h1, h2⟩ := C25_boundary hinv hS hs h
  have C' := default_completed (V := V) n
  constructor
  · intro k k1 k2
    obtain ⟨q, rfl⟩ : ∃ q, k = q + 1 := ⟨k - 1, by omega⟩
    rw [h1 q 0 (by rw [(C26_unique C C' q).1, topZero_item, if_pos (by omega)]), smul_zero]
  · intro k k1 k2
    obtain ⟨q, rfl⟩ : ∃ q, k = q + 1 := ⟨k - 1, by omega⟩
    rw [h2 q 0 (by rw [(C26_unique C C' q).2, topZero_item, if_pos (by omega)]), smul_zero]

/-- What happens for decreasing `x`: the result has its knots in increasing order, so `x[0]` is the last one.  The derivatives of
order `n/2+1,…,n-1` vanish at `x[0]`, those of order `(n-1)/2+1,…,n-1` at `x[-1]`. For odd `n` this is the documented
behaviour (C119_odd); for even `n` it is `x[-1]` which gets the extra condition. -/
theorem C119_decreasing_partial (hinv : InvOK inv) (hS : ScipyOK S) (hs : x.Pairwise (· > ·))
    (h : spline inv S x y n [] [] false extrap = .ok (.pw p)) :
    (∀ k, n / 2 < k → k ≤ n - 1 → pieceDeriv p (x.length - 1) (x.getD 0 0) k = 0) ∧
      ∀ k, (n - 1) / 2 < k → k ≤ n - 1 → pieceDeriv p 1 (x.getD (x.length - 1) 0) k = 0 := by
  rw [C29_decreasing hs] at h
  have hs' : x.reverse.Pairwise (· < ·) := List.pairwise_reverse.mpr hs
  have hx := (spline_nonper hs' h).1
  rw [List.length_reverse] at hx
  obtain ⟨h1, h2⟩ := C119_increasing hinv hS hs' h
  have e : ∀ j < x.length, x.reverse.getD j 0 = x.getD (x.length - 1 - j) 0 := by
    intro j hj
    rw [List.getD_eq_getElem _ _ (by simpa using hj), List.getElem_reverse, List.getD_eq_getElem _ _ (by omega)]
  rw [e 0 (by omega), Nat.sub_zero] at h1
  rw [List.length_reverse, e _ (by omega), Nat.sub_self] at h2
  exact ⟨h2, h1⟩

/-- **C119** — odd degree: the `(n-1)/2` highest derivatives vanish at both ends, for increasing and for decreasing `x`. -/
theorem C119_odd (hinv : InvOK inv) (hS : ScipyOK S) (hn : Odd n)
    (h : spline inv S x y n [] [] false extrap = .ok (.pw p)) :
    (x.Pairwise (· < ·) → (∀ k, (n - 1) / 2 < k → k ≤ n - 1 → pieceDeriv p 1 (x.getD 0 0) k = 0) ∧
      ∀ k, (n - 1) / 2 < k → k ≤ n - 1 → pieceDeriv p (x.length - 1) (x.getD (x.length - 1) 0) k = 0) ∧
    (x.Pairwise (· > ·) → (∀ k, (n - 1) / 2 < k → k ≤ n - 1 → pieceDeriv p (x.length - 1) (x.getD 0 0) k = 0) ∧
      ∀ k, (n - 1) / 2 < k → k ≤ n - 1 → pieceDeriv p 1 (x.getD (x.length - 1) 0) k = 0) := by
  obtain ⟨m, rfl⟩ := hn
  have e : (2 * m + 1) / 2 = (2 * m + 1 - 1) / 2 := by omega
  refine ⟨fun hs => ?_, fun hs => ?_⟩
  · have := C119_increasing hinv hS hs h; rwa [e] at this
  · have := C119_decreasing_partial hinv hS hs h; rwa [e] at this

/-- The documentation ("the first endpoint getting an extra zero derivative in the case of even n") is false for decreasing `x`:
`spline([2,1,0], [0,1,5], n=2)` has slope 6 at `x[0]`, and slope 0 at `x[-1]`. -/
theorem C119_even_refuted : ∃ p, spline (V := ℚ) (adjInv ℚ) (exactScipy ℚ) [2, 1, 0] [0, 1, 5] 2 = .ok (.pw p) ∧
    pieceDeriv p 2 2 1 = 6 ∧ pieceDeriv p 1 0 1 = 0 := by
  have hc : ((spline (V := ℚ) (adjInv ℚ) (exactScipy ℚ) [2, 1, 0] [0, 1, 5] 2).bind fun o => match o with
    | .pw p => .ok p.c | .per P => .error .typeError) = .ok [[5, 0, 0], [5, 0, -4], [1, -8, 7], [0, 6, 0]] := by decide +kernel
  have hd : ([2, 1, 0] : List ℚ).Pairwise (· > ·) := by decide +kernel
  cases h : spline (V := ℚ) (adjInv ℚ) (exactScipy ℚ) [2, 1, 0] [0, 1, 5] 2 with
  | error e => rw [h] at hc; cases hc
  | ok o =>
    cases o with
    | per P => rw [h] at hc; cases hc
    | pw p =>
      have hx := (C29_interpolates adjInv_ok exactScipy_ok hd h).1
      rw [h] at hc
      have hc : p.c = [[5, 0, 0], [5, 0, -4], [1, -8, 7], [0, 6, 0]] := by
        simpa [Except.bind] using hc
      refine ⟨p, rfl, ?_, ?_⟩
      · unfold pieceDeriv piece polyDeriv origin
        rw [hc, hx]
        simp [sum_range_succ]; norm_num
      · exact (C119_decreasing_partial adjInv_ok exactScipy_ok hd h).2 1 (by decide) (by decide)

/-- The hypotheses can be met: the natural cubic spline through three points in decreasing order. -/
example {S : Scipy ℚ} (hS : ScipyOK S) (a b c : ℚ) : ∃ p, spline (V := ℚ) (adjInv ℚ) S [3, 1, 0] [a, b, c] 3 = .ok (.pw p) ∧
    pieceDeriv p 2 3 2 = 0 ∧ pieceDeriv p 1 0 2 = 0 := by
  have hd : ([3, 1, 0] : List ℚ).Pairwise (· > ·) := by decide +kernel
  obtain ⟨p, hp⟩ : ∃ p, spline (V := ℚ) (adjInv ℚ) S [3, 1, 0] [a, b, c] 3 = .ok (.pw p) := by
    rw [C29_decreasing hd]
    exact (C24_default_iff hS (by decide +kernel) (by simp) (by simp) (by omega)).1 (by decide)
  obtain ⟨h1, h2⟩ := (C119_odd adjInv_ok hS (by decide) hp).2 hd
  exact ⟨p, hp, h1 2 (by decide) (by decide), h2 2 (by decide) (by decide)⟩

end Npplus
