import Verif.Lemmas.MapSpline
import Verif.Props.Pline

/-!
# C83: the constructor and `spline` treat the values linearly, component by component

The values of a piecewise polynomial may be arrays: the leading dimensions of `y` (pwpoly.py:52-57, 885-887).
`V` is the space of these values, and a component (one index of the leading dimensions) is a linear map of it.
-/

set_option linter.unusedSectionVars false

namespace Npplus

open Spec PwPoly Spl

variable {K : Type} [Field K] [LinearOrder K] {V W : Type} [AddCommGroup V] [Module K V] [AddCommGroup W] [Module K W]

/-- **C83** — for every linear map `φ` of the values (such as picking one component): `PwPoly(xk, φ(y), φ(dydx), …)`
raises an exception exactly when `PwPoly(xk, y, dydx, …)` does, and the same one; and otherwise the two have the same knots
and degree, and the value and all derivatives of the one are `φ` of those of the other, everywhere. -/
theorem C83_constructor (φ : V →ₗ[K] W) (inv : InvFun K) (xk : List K) (args : List (List V)) :
    (∀ e, init inv xk (args.map (List.map φ)) = .error e ↔ init inv xk args = .error e) ∧
    ∀ p, init inv xk args = .ok p → ∃ q, init inv xk (args.map (List.map φ)) = .ok q ∧ q.xk = p.xk ∧ q.n = p.n ∧
      (∀ t, q.call t = φ (p.call t)) ∧ ∀ t nd, q.callN t nd = (p.callN t nd).map φ := by
  rw [init_map]
  cases h : init inv xk args with
  | error e => exact ⟨fun e' => by simp [Except.map], fun p hp => nomatch hp⟩
  | ok p =>
    refine ⟨fun e' => by simp [Except.map], fun p' hp' => ?_⟩
    cases hp'
    exact ⟨_, rfl, rfl, rfl, mapL_call φ p, mapL_callN φ p⟩

variable [FloorRing K] [IsStrictOrderedRing K]

theorem SplineOut.mapL_at (φ : V →ₗ[K] W) (f : SplineOut K V) (t : K) : (f.mapL φ).at t = (f.at t).map φ := by
  cases f with
  | pw p => simp [SplineOut.mapL, SplineOut.at, Except.map, mapL_call]
  | per p => exact PerPwPoly.mapL_call φ p t

theorem SplineOut.mapL_atN (φ : V →ₗ[K] W) (f : SplineOut K V) (t : K) (nd : ℕ) : (f.mapL φ).atN t nd = (f.atN t nd).map (List.map φ) := by
  cases f with
  | pw p => simp [SplineOut.mapL, SplineOut.atN, Except.map, mapL_callN]
  | per p => exact PerPwPoly.mapL_callN φ p t nd

/-- **C83** — the same for `spline`: data `y` and boundary values `lo`, `hi` mapped by `φ`. -/
theorem C83_spline {S : Scipy K} (hS : ScipyOK S) (φ : V →ₗ[K] W) (inv : InvFun K) (x : List K) (y : List V) (n : ℕ)
    (lo hi : List (Option V)) (per : Bool) (extrap : Option (ℕ × ℕ)) :
    (∀ e, spline inv S x (y.map φ) n (lo.map (Option.map φ)) (hi.map (Option.map φ)) per extrap = .error e ↔
      spline inv S x y n lo hi per extrap = .error e) ∧
    ∀ f, spline inv S x y n lo hi per extrap = .ok f →
      ∃ g, spline inv S x (y.map φ) n (lo.map (Option.map φ)) (hi.map (Option.map φ)) per extrap = .ok g ∧
        (∀ t, g.at t = (f.at t).map φ) ∧ ∀ t nd, g.atN t nd = (f.atN t nd).map (List.map φ) := by
  rw [show lo.map (Option.map φ) = bcMap φ lo from rfl, show hi.map (Option.map φ) = bcMap φ hi from rfl, spline_map φ inv hS]
  cases h : spline inv S x y n lo hi per extrap with
  | error e => exact ⟨fun e' => by simp [Except.map], fun p hp => nomatch hp⟩
  | ok f =>
    refine ⟨fun e' => by simp [Except.map], fun f' hf' => ?_⟩
    cases hf'
    exact ⟨_, rfl, SplineOut.mapL_at φ f, SplineOut.mapL_atN φ f⟩

/-- **C83** — the joint spline of `m ≥ 1` curves over the same points exists exactly when the spline of any one of them does, and
its components are the splines of the components. -/
theorem C83_components {S : Scipy K} (hS : ScipyOK S) {m : ℕ} (inv : InvFun K) (x : List K) (y : List (Fin m → K)) (n : ℕ)
    (lo hi : List (Option (Fin m → K))) (per : Bool) (extrap : Option (ℕ × ℕ)) (i : Fin m) :
    ((∃ f, spline inv S x y n lo hi per extrap = .ok f) ↔
      ∃ g, spline inv S x (y.map fun v => v i) n (lo.map (Option.map fun v => v i)) (hi.map (Option.map fun v => v i)) per extrap = .ok g) ∧
    ∀ f g, spline inv S x y n lo hi per extrap = .ok f →
      spline inv S x (y.map fun v => v i) n (lo.map (Option.map fun v => v i)) (hi.map (Option.map fun v => v i)) per extrap = .ok g →
        (∀ t, g.at t = (f.at t).map fun v => v i) ∧ ∀ t nd, g.atN t nd = (f.atN t nd).map (List.map fun v => v i) := by
  obtain ⟨h1, h2⟩ := C83_spline hS (LinearMap.proj (R := K) (φ := fun _ : Fin m => K) i) inv x y n lo hi per extrap
  have e : (⇑(LinearMap.proj (R := K) (φ := fun _ : Fin m => K) i)) = fun v => v i := rfl
  rw [e] at h1 h2
  refine ⟨⟨fun ⟨f, hf⟩ => (h2 f hf).imp fun g hg => hg.1, fun ⟨g, hg⟩ => ?_⟩, fun f g hf hg => ?_⟩
  · cases h : spline inv S x y n lo hi per extrap with
    | ok f => exact ⟨f, rfl⟩
    | error er => exact absurd hg (by rw [(h1 er).2 h]; simp)
  · obtain ⟨g', hg', h3⟩ := h2 f hf
    rw [hg'] at hg
    cases hg
    exact h3

/-- **C83, superposition** — `Y` pairs the data of two curves, `LO` and `HI` pair their boundary values.  If both splines exist, so does
the spline of the combination `a·first + b·second`, and it is the combination of the splines: values and derivatives everywhere. -/
theorem C83_superposition {S : Scipy K} (hS : ScipyOK S) (inv : InvFun K) (x : List K) (Y : List (V × V)) (n : ℕ)
    (LO HI : List (Option (V × V))) (per : Bool) (extrap : Option (ℕ × ℕ)) (a b : K) {f g : SplineOut K V}
    (hf : spline inv S x (Y.map Prod.fst) n (LO.map (Option.map Prod.fst)) (HI.map (Option.map Prod.fst)) per extrap = .ok f)
    (hg : spline inv S x (Y.map Prod.snd) n (LO.map (Option.map Prod.snd)) (HI.map (Option.map Prod.snd)) per extrap = .ok g) :
    ∃ r, spline inv S x (Y.map fun p => a • p.1 + b • p.2) n (LO.map (Option.map fun p => a • p.1 + b • p.2))
        (HI.map (Option.map fun p => a • p.1 + b • p.2)) per extrap = .ok r ∧
      (∀ t u v, f.at t = .ok u → g.at t = .ok v → r.at t = .ok (a • u + b • v)) ∧
      ∀ t nd us vs, f.atN t nd = .ok us → g.atN t nd = .ok vs → r.atN t nd = .ok (List.zipWith (fun u v => a • u + b • v) us vs) := by
  have hF := C83_spline hS (LinearMap.fst K V V) inv x Y n LO HI per extrap
  have hG := C83_spline hS (LinearMap.snd K V V) inv x Y n LO HI per extrap
  have hR := C83_spline hS (a • LinearMap.fst K V V + b • LinearMap.snd K V V) inv x Y n LO HI per extrap
  have e1 : (⇑(LinearMap.fst K V V)) = Prod.fst := rfl
  have e2 : (⇑(LinearMap.snd K V V)) = Prod.snd := rfl
  have e3 : (⇑(a • LinearMap.fst K V V + b • LinearMap.snd K V V)) = fun p => a • p.1 + b • p.2 := rfl
  rw [e1] at hF; rw [e2] at hG; rw [e3] at hR
  cases h : spline inv S x Y n LO HI per extrap with
  | error er => exact absurd hf (by rw [(hF.1 er).2 h]; simp)
  | ok F =>
    obtain ⟨f', hf', f1, f2⟩ := hF.2 F h
    obtain ⟨g', hg', g1, g2⟩ := hG.2 F h
    obtain ⟨r, hr, r1, r2⟩ := hR.2 F h
    rw [hf'] at hf; cases hf
    rw [hg'] at hg; cases hg
    refine ⟨r, hr, fun t u v hu hv => ?_, fun t nd us vs hu hv => ?_⟩
    · rw [f1] at hu; rw [g1] at hv; rw [r1]
      cases hF : F.at t with
      | error er => rw [hF] at hu; exact nomatch hu
      | ok w =>
        rw [hF] at hu hv
        simp only [Except.map, Except.ok.injEq] at hu hv ⊢
        rw [hu, hv]
    · rw [f2] at hu; rw [g2] at hv; rw [r2]
      cases hF : F.atN t nd with
      | error er => rw [hF] at hu; exact nomatch hu
      | ok w =>
        rw [hF] at hu hv
        simp only [Except.map, Except.ok.injEq] at hu hv ⊢
        rw [← hu, ← hv, List.zipWith_map, List.zipWith_self]

/-- The hypotheses are met: two cubics between two points with given slopes, and what the combination evaluates to. -/
example : ((spline (V := ℚ) (adjInv ℚ) (exactScipy ℚ) [0, 2] [0, 8] 3 [some 0] [some 12]).bind fun o =>
      [(1/2 : ℚ), 3/2].mapM fun t => o.atN t 1) = .ok [[1/8, 3/4], [27/8, 27/4]] ∧
    ((spline (V := ℚ) (adjInv ℚ) (exactScipy ℚ) [0, 2] [0, 4] 3 [some 0] [some 4]).bind fun o =>
      [(1/2 : ℚ), 3/2].mapM fun t => o.atN t 1) = .ok [[1/4, 1], [9/4, 3]] ∧
    ((spline (V := ℚ) (adjInv ℚ) (exactScipy ℚ) [0, 2] [0, 2*8+3*4] 3 [some 0] [some (2*12+3*4)]).bind fun o =>
      [(1/2 : ℚ), 3/2].mapM fun t => o.atN t 1) = .ok [[2*(1/8)+3*(1/4), 2*(3/4)+3*1], [2*(27/8)+3*(9/4), 2*(27/4)+3*3]] := by
  decide +kernel

/-- A joint spline of two curves exists. -/
example : ∃ f, spline (V := Fin 2 → ℚ) (adjInv ℚ) (exactScipy ℚ) [0, 2] [![0, 0], ![8, 4]] 3 [some ![0, 0]] [some ![12, 4]] = .ok f := by
  refine (C83_components (exactScipy_ok (K := ℚ)) _ _ _ _ _ _ _ _ 1).1.2 ?_
  have h : ((spline (V := ℚ) (adjInv ℚ) (exactScipy ℚ) [0, 2] [0, 4] 3 [some 0] [some 4]).bind fun o =>
      [(1/2 : ℚ), 3/2].mapM fun t => o.atN t 1) = .ok [[1/4, 1], [9/4, 3]] := by decide +kernel
  simp only [List.map_cons, List.map_nil, Option.map_some, Matrix.cons_val_one, Matrix.cons_val_fin_one]
  cases hs : spline (V := ℚ) (adjInv ℚ) (exactScipy ℚ) [0, 2] [0, 4] 3 [some 0] [some 4] with
  | ok f => exact ⟨f, rfl⟩
  | error e => rw [hs] at h; exact nomatch h

end Npplus
