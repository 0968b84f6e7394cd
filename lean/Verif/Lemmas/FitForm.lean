import Verif.Lemmas.SplfitCore
import Verif.Props.Plfit
import Verif.Props.Linear

/-!
# `splfit` and `plfit` split into preparation, component loop and assembly

Used for C80 (components) and C84 (order of the data).
-/

set_option linter.unusedSectionVars false

namespace Npplus
open Spec Finset Fit

variable {K : Type} [Field K] [LinearOrder K] [FloorRing K] {m p : ℕ}

namespace Fit

/-- The checks of `splfit` before the loop over the components. -/
def splPrep (xk x : List K) (ylen siglen n : ℕ) (nc : Option ℤ) (lo hi : List (Fin m → K)) (per : Bool) (extrap : Option (ℕ × ℕ)) :
    Except PyErr (Setup K m × ℕ) :=
  (setup xk x lo hi per extrap).bind fun s =>
  if ylen ≠ x.length then .error PyErr.valueError else
  if siglen ≠ ylen then .error .valueError else
  (match nc with
    | none => Except.ok ((n : ℤ) - 1)
    | some k => if k < 0 ∨ (n : ℤ) ≤ k then .error PyErr.valueError else .ok k).bind fun nc =>
  if 1 + nc < max s.lo.length s.hi.length then .error .valueError else
  if nc < 0 then .error .indexError else .ok (s, nc.toNat)

/-- The solution for one component. -/
def splComp (S : Scipy K) (n nc : ℕ) (s : Setup K m) (N : ℕ) (y sig : List (Fin m → K)) (per : Bool) : Fin m → Except PyErr (ℕ → K) := fun i =>
  let sys := sysOf n nc s N y sig per i
  let ab : Arr2 K := ⟨n + 2, sys.n, sys.a⟩
  if per then solvesPeriodic S ab sys.n sys.b true else solvesBanded S ab sys.n sys.b true

/-- What `splfit` returns. -/
def splFin (n nc : ℕ) (s : Setup K m) (per : Bool) (z : Fin m → ℕ → K) : Except PyErr (SplineOut K (Fin m → K) × Cost K m) :=
  let p := splAssemble n nc s.lo.length s.xk z
  let cost := splCost n nc (s.xk.length - 1) (Spl.width s.xk) s.lo.length s.hi.length z per
  if per then (PerPwPoly.new p).map fun P => (.per P, cost)
  else .ok (.pw (Spl.truncEnds (s.extrap.getD (nc, nc)) p), cost)

theorem splfit_form (S : Scipy K) (xk x : List K) (y : List (Fin m → K)) (sigy : Option (List (Fin m → K))) (n : ℕ) (nc : Option ℤ)
    (lo hi : List (Fin m → K)) (per : Bool) (extrap : Option (ℕ × ℕ)) :
    splfit S xk x y sigy n nc lo hi per extrap =
      (splPrep xk x y.length (sigy.getD (y.map fun _ _ => 1)).length n nc lo hi per extrap).bind fun r =>
        (seqFin m (splComp S n r.2 r.1 x.length y (sigy.getD (y.map fun _ _ => 1)) per)).bind (splFin n r.2 r.1 per) := by
  unfold splfit splPrep
  simp only [bind, pure, Except.pure, throw, throwThe, MonadExceptOf.throw]
  cases setup xk x lo hi per extrap with
  | error e => rfl
  | ok s =>
    simp only [Except.bind]
    by_cases h2 : y.length ≠ x.length
    · simp only [if_pos h2]
    simp only [if_neg h2]
    by_cases h3 : (sigy.getD (y.map fun _ _ => 1)).length ≠ y.length
    · simp only [if_pos h3]
    simp only [if_neg h3]
    have fin : ∀ (k : ℕ) (z : Fin m → ℕ → K), splFin n k s per z =
        if per = true then (match PerPwPoly.new (splAssemble n k s.lo.length s.xk z) with
          | .error e => .error e
          | .ok P => .ok (.per P, splCost n k (s.xk.length - 1) (Spl.width s.xk) s.lo.length s.hi.length z per))
        else .ok (.pw (Spl.truncEnds (s.extrap.getD (k, k)) (splAssemble n k s.lo.length s.xk z)),
          splCost n k (s.xk.length - 1) (Spl.width s.xk) s.lo.length s.hi.length z per) := by
      intro k z
      unfold splFin
      cases per with
      | false => rfl
      | true =>
        simp only [if_true]
        cases PerPwPoly.new (splAssemble n k s.lo.length s.xk z) <;> rfl
    cases nc with
    | none =>
      simp only
      by_cases h4 : 1 + ((n : ℤ) - 1) < ((max s.lo.length s.hi.length : ℕ) : ℤ)
      · simp only [if_pos h4]
      simp only [if_neg h4]
      by_cases h5 : (n : ℤ) - 1 < 0
      · simp only [if_pos h5]
      simp only [if_neg h5, fin]
      delta splComp sysOf
      beta_reduce
      simp only
      generalize seqFin m _ = r
      cases r with
      | error e => rfl
      | ok z =>
        simp only
        cases PerPwPoly.new (splAssemble n _ s.lo.length s.xk z) <;> rfl
    | some k =>
      simp only
      by_cases hk : k < 0 ∨ (n : ℤ) ≤ k
      · simp only [if_pos hk]
      simp only [if_neg hk]
      by_cases h4 : 1 + k < ((max s.lo.length s.hi.length : ℕ) : ℤ)
      · simp only [if_pos h4]
      simp only [if_neg h4]
      by_cases h5 : k < 0
      · simp only [if_pos h5]
      simp only [if_neg h5, fin]
      delta splComp sysOf
      beta_reduce
      simp only
      generalize seqFin m _ = r
      cases r with
      | error e => rfl
      | ok z =>
        simp only
        cases PerPwPoly.new (splAssemble n _ s.lo.length s.xk z) <;> rfl

/-- The solution for one component of `plfit`. -/
def plOne (S : Scipy K) (H : SolveH K) (s : Setup K m) (N : ℕ) (y sig : List (Fin m → K)) (per : Bool) (i : Fin m) : Except PyErr (ℕ → K) :=
  plComp S H s.xk.length N (fun t => index s.xk (s.x.getD t 0))
    (fun t => (s.x.getD t 0 - s.xk.getD (index s.xk (s.x.getD t 0)) 0) * (1 / Spl.width s.xk (index s.xk (s.x.getD t 0))))
    (fun t => y.getD t 0 i) (fun t => 1 / (sig.getD t 0 i * sig.getD t 0 i)) (s.lo.head?.map (· i)) (s.hi.head?.map (· i)) per

/-- The checks of `plfit`. -/
def plPrep (xk x : List K) (ylen siglen : ℕ) (lo hi : List (Fin m → K)) (per : Bool) (extrap : Option (ℕ × ℕ)) :
    Except PyErr (Setup K m) :=
  (setup xk x lo hi per extrap).bind fun s =>
  if 1 < s.lo.length ∨ 1 < s.hi.length then .error .valueError else
  if ylen ≠ x.length then .error .valueError else
  if siglen ≠ ylen then .error .valueError else .ok s

theorem plfit_form (inv : InvFun K) (S : Scipy K) (H : SolveH K) (xk x : List K) (y : List (Fin m → K)) (sigy : Option (List (Fin m → K)))
    (lo hi : List (Fin m → K)) (per : Bool) (extrap : Option (ℕ × ℕ)) :
    plfit inv S H xk x y sigy lo hi per extrap =
      (plPrep xk x y.length (sigy.getD (y.map fun _ _ => 1)).length lo hi per extrap).bind fun s =>
        (seqFin m (plOne S H s x.length y (sigy.getD (y.map fun _ _ => 1)) per)).bind fun yk =>
          pline inv S s.xk ((List.range s.xk.length).map fun k i => yk i k) s.extrap per := by
  unfold plfit plPrep
  simp only [bind, throw, throwThe, MonadExceptOf.throw]
  cases setup xk x lo hi per extrap with
  | error e => rfl
  | ok s =>
    simp only [Except.bind, pure, Except.pure]
    by_cases h1 : 1 < s.lo.length ∨ 1 < s.hi.length
    · simp only [if_pos h1]
    simp only [if_neg h1]
    by_cases h2 : y.length ≠ x.length
    · simp only [if_pos h2]
    simp only [if_neg h2]
    by_cases h3 : (sigy.getD (y.map fun _ _ => 1)).length ≠ y.length
    · simp only [if_pos h3]
    simp only [if_neg h3]
    rfl

/-! ### components -/

/-- `v ↦ v ∘ ρ`: choose components. -/
abbrev sel (K : Type) [Field K] (ρ : Fin p → Fin m) : (Fin m → K) →ₗ[K] (Fin p → K) := LinearMap.funLeft K K ρ

/-- Boundary values mapped. -/
def Setup.sel (ρ : Fin p → Fin m) (s : Setup K m) : Setup K p := ⟨s.xk, s.x, s.lo.map (Fit.sel K ρ), s.hi.map (Fit.sel K ρ), s.extrap⟩

/-- Costs of the chosen components. -/
def Cost.sel (ρ : Fin p → Fin m) (c : Cost K m) : Cost K p :=
  ⟨c.inner.map (List.map (Fit.sel K ρ)), c.lo.map (Fit.sel K ρ), c.hi.map (Fit.sel K ρ)⟩

theorem setup_sel (ρ : Fin p → Fin m) (xk x : List K) (lo hi : List (Fin m → K)) (per : Bool) (extrap : Option (ℕ × ℕ)) :
    setup xk x (lo.map (sel K ρ)) (hi.map (sel K ρ)) per extrap = (setup xk x lo hi per extrap).map (Setup.sel ρ) := by
  unfold setup
  simp only [bind, Except.bind, pure, Except.pure, throw, throwThe, MonadExceptOf.throw, ne_eq, List.map_eq_nil_iff]
  by_cases h1 : (per = true) ∧ (¬ lo = [] ∨ ¬ hi = [] ∨ ¬ extrap = none)
  · simp only [if_pos h1]; rfl
  simp only [if_neg h1]
  by_cases h2 : xk.length < 2
  · simp only [if_pos h2]; rfl
  simp only [if_neg h2]
  by_cases hd : xk.getD (xk.length - 1) 0 < xk.getD 0 0
  · simp only [hd, if_true, List.map_eq_nil_iff]
    cases per with
    | true => rfl
    | false =>
      simp only [Bool.false_eq_true, if_false]
      by_cases h3 : x = []
      · simp only [if_pos h3]; rfl
      simp only [if_neg h3]
      split
      · rfl
      split <;> rfl
  · simp only [hd, if_false, List.map_eq_nil_iff]
    cases per with
    | true => rfl
    | false =>
      simp only [Bool.false_eq_true, if_false]
      by_cases h3 : x = []
      · simp only [if_pos h3]; rfl
      simp only [if_neg h3]
      split
      · rfl
      split <;> rfl

theorem splPrep_sel (ρ : Fin p → Fin m) (xk x : List K) (yl sl n : ℕ) (nc : Option ℤ) (lo hi : List (Fin m → K)) (per : Bool)
    (extrap : Option (ℕ × ℕ)) :
    splPrep xk x yl sl n nc (lo.map (sel K ρ)) (hi.map (sel K ρ)) per extrap =
      (splPrep xk x yl sl n nc lo hi per extrap).map fun r => (r.1.sel ρ, r.2) := by
  unfold splPrep
  rw [setup_sel]
  cases setup xk x lo hi per extrap with
  | error e => rfl
  | ok s =>
    simp only [Except.map, Except.bind, Setup.sel, List.length_map]
    by_cases h2 : yl ≠ x.length
    · simp only [if_pos h2]
    simp only [if_neg h2]
    by_cases h3 : sl ≠ yl
    · simp only [if_pos h3]
    simp only [if_neg h3]
    cases nc with
    | none =>
      simp only
      by_cases h4 : 1 + ((n : ℤ) - 1) < ((max s.lo.length s.hi.length : ℕ) : ℤ)
      · simp only [if_pos h4]
      simp only [if_neg h4]
      by_cases h5 : (n : ℤ) - 1 < 0
      · simp only [if_pos h5]
      simp only [if_neg h5]
    | some k =>
      simp only
      by_cases hk : k < 0 ∨ (n : ℤ) ≤ k
      · simp only [if_pos hk]
      simp only [if_neg hk]
      by_cases h4 : 1 + k < ((max s.lo.length s.hi.length : ℕ) : ℤ)
      · simp only [if_pos h4]
      simp only [if_neg h4]
      by_cases h5 : k < 0
      · simp only [if_pos h5]
      simp only [if_neg h5]

theorem plPrep_sel (ρ : Fin p → Fin m) (xk x : List K) (yl sl : ℕ) (lo hi : List (Fin m → K)) (per : Bool) (extrap : Option (ℕ × ℕ)) :
    plPrep xk x yl sl (lo.map (sel K ρ)) (hi.map (sel K ρ)) per extrap = (plPrep xk x yl sl lo hi per extrap).map (Setup.sel ρ) := by
  unfold plPrep
  rw [setup_sel]
  cases setup xk x lo hi per extrap with
  | error e => rfl
  | ok s =>
    simp only [Except.map, Except.bind, Setup.sel, List.length_map]
    split
    · rfl
    split
    · rfl
    split <;> rfl

theorem getD_sel (ρ : Fin p → Fin m) (l : List (Fin m → K)) (t : ℕ) (i : Fin p) : (l.map (sel K ρ)).getD t 0 i = l.getD t 0 (ρ i) := by
  rw [getD_map_zero]; rfl

theorem splComp_sel (ρ : Fin p → Fin m) (S : Scipy K) (n nc : ℕ) (s : Setup K m) (N : ℕ) (y sig : List (Fin m → K)) (per : Bool) (i : Fin p) :
    splComp S n nc (s.sel ρ) N (y.map (sel K ρ)) (sig.map (sel K ρ)) per i = splComp S n nc s N y sig per (ρ i) := by
  unfold splComp sysOf
  simp only [getD_sel, Setup.sel, List.map_map]
  rfl

theorem plOne_sel (ρ : Fin p → Fin m) (S : Scipy K) (H : SolveH K) (s : Setup K m) (N : ℕ) (y sig : List (Fin m → K)) (per : Bool) (i : Fin p) :
    plOne S H (s.sel ρ) N (y.map (sel K ρ)) (sig.map (sel K ρ)) per i = plOne S H s N y sig per (ρ i) := by
  unfold plOne
  simp only [getD_sel, Setup.sel, List.head?_map, Option.map_map]
  rfl

theorem splAssemble_sel (ρ : Fin p → Fin m) (n nc nlo : ℕ) (xk : List K) (z : Fin m → ℕ → K) :
    splAssemble n nc nlo xk (fun i => z (ρ i)) = (splAssemble n nc nlo xk z).mapL (sel K ρ) := by
  have hin : ∀ j, splInner n nc nlo (Spl.width xk) (fun i => z (ρ i)) j = (splInner n nc nlo (Spl.width xk) z j).map (sel K ρ) := by
    intro j
    simp only [splInner, List.map_map]
    rfl
  have hin' : splInner n nc nlo (Spl.width xk) (fun i => z (ρ i)) = fun j => (splInner n nc nlo (Spl.width xk) z j).map (sel K ρ) := funext hin
  simp only [splAssemble, PwPoly.mapL, hin', polyddx_map, List.map_append, List.map_map, List.map_cons, List.map_nil]
  rfl

theorem splCost_sel (ρ : Fin p → Fin m) (n nc nk1 : ℕ) (dx : ℕ → K) (nlo nhi : ℕ) (z : Fin m → ℕ → K) (per : Bool) :
    splCost n nc nk1 dx nlo nhi (fun i => z (ρ i)) per = (splCost n nc nk1 dx nlo nhi z per).sel ρ := by
  cases per <;> simp only [splCost, Cost.sel, Function.comp_def, List.map_map, List.map_nil, if_true, Bool.false_eq_true, if_false] <;> rfl

theorem splFin_sel (ρ : Fin p → Fin m) (n nc : ℕ) (s : Setup K m) (per : Bool) (z : Fin m → ℕ → K) :
    splFin n nc (s.sel ρ) per (fun i => z (ρ i)) = (splFin n nc s per z).map fun r => (r.1.mapL (sel K ρ), r.2.sel ρ) := by
  unfold splFin
  have h1 : (s.sel ρ).lo.length = s.lo.length := by simp [Setup.sel]
  have h2 : (s.sel ρ).hi.length = s.hi.length := by simp [Setup.sel]
  have h3 : (s.sel ρ).xk = s.xk := rfl
  have h4 : (s.sel ρ).extrap = s.extrap := rfl
  simp only [h1, h2, h3, h4, splAssemble_sel, splCost_sel]
  cases per with
  | false => simp only [Bool.false_eq_true, if_false, truncEnds_map]; rfl
  | true =>
    simp only [if_true, PerPwPoly.new_map]
    cases PerPwPoly.new (splAssemble n nc s.lo.length s.xk z) <;> rfl

theorem sig_sel (ρ : Fin p → Fin m) (y : List (Fin m → K)) (sigy : Option (List (Fin m → K))) :
    (sigy.map (List.map (sel K ρ))).getD ((y.map (sel K ρ)).map fun _ _ => 1) = (sigy.getD (y.map fun _ _ => 1)).map (sel K ρ) := by
  cases sigy with
  | some s => rfl
  | none => simp only [Option.map_none, Option.getD_none, List.map_map]; rfl

/-- One step of the component argument for a loop and what follows it. -/
theorem seqFin_sel {α β γ : Type} (ρ : Fin p → Fin m) (f : Fin m → Except PyErr α) (g : (Fin m → α) → Except PyErr β)
    (g' : (Fin p → α) → Except PyErr γ) (ψ : β → γ) (hg : ∀ z, g' (fun i => z (ρ i)) = (g z).map ψ) {r : β}
    (h : (seqFin m f).bind g = .ok r) : (seqFin p fun i => f (ρ i)).bind g' = .ok (ψ r) := by
  cases hz : seqFin m f with
  | error e => rw [hz] at h; exact nomatch h
  | ok z =>
    rw [hz] at h
    have : seqFin p (fun i => f (ρ i)) = .ok fun i => z (ρ i) := seqFin_ok.2 fun i => seqFin_ok.1 hz (ρ i)
    rw [this]
    simp only [Except.bind] at h ⊢
    rw [hg, h]; rfl

theorem splfit_sel (ρ : Fin p → Fin m) {S : Scipy K} {xk x : List K} {y : List (Fin m → K)} {sigy : Option (List (Fin m → K))} {n : ℕ}
    {nc : Option ℤ} {lo hi : List (Fin m → K)} {per : Bool} {extrap : Option (ℕ × ℕ)} {out : SplineOut K (Fin m → K)} {cost : Cost K m}
    (h : splfit S xk x y sigy n nc lo hi per extrap = .ok (out, cost)) :
    splfit S xk x (y.map (sel K ρ)) (sigy.map (List.map (sel K ρ))) n nc (lo.map (sel K ρ)) (hi.map (sel K ρ)) per extrap =
      .ok (out.mapL (sel K ρ), cost.sel ρ) := by
  rw [splfit_form] at h ⊢
  rw [sig_sel, List.length_map, List.length_map, splPrep_sel]
  cases hp : splPrep xk x y.length (sigy.getD (y.map fun _ _ => 1)).length n nc lo hi per extrap with
  | error e => rw [hp] at h; exact nomatch h
  | ok r =>
    rw [hp] at h
    simp only [Except.bind, Except.map] at h ⊢
    have e : splComp S n r.2 (r.1.sel ρ) x.length (y.map (sel K ρ)) ((sigy.getD (y.map fun _ _ => 1)).map (sel K ρ)) per =
        fun i => splComp S n r.2 r.1 x.length y (sigy.getD (y.map fun _ _ => 1)) per (ρ i) := by
      funext i; exact splComp_sel ρ S n r.2 r.1 _ _ _ per i
    rw [e]
    exact seqFin_sel ρ _ _ _ (fun r => (r.1.mapL (sel K ρ), r.2.sel ρ)) (fun z => splFin_sel ρ n r.2 r.1 per z) h

theorem plfit_sel (ρ : Fin p → Fin m) {inv : InvFun K} {S : Scipy K} (hS : ScipyOK S) {H : SolveH K} {xk x : List K} {y : List (Fin m → K)}
    {sigy : Option (List (Fin m → K))} {lo hi : List (Fin m → K)} {per : Bool} {extrap : Option (ℕ × ℕ)} {out : SplineOut K (Fin m → K)}
    (h : plfit inv S H xk x y sigy lo hi per extrap = .ok out) :
    plfit inv S H xk x (y.map (sel K ρ)) (sigy.map (List.map (sel K ρ))) (lo.map (sel K ρ)) (hi.map (sel K ρ)) per extrap =
      .ok (out.mapL (sel K ρ)) := by
  rw [plfit_form] at h ⊢
  rw [sig_sel, List.length_map, List.length_map, plPrep_sel]
  cases hp : plPrep xk x y.length (sigy.getD (y.map fun _ _ => 1)).length lo hi per extrap with
  | error e => rw [hp] at h; exact nomatch h
  | ok s =>
    rw [hp] at h
    simp only [Except.bind, Except.map] at h ⊢
    have e : plOne S H (s.sel ρ) x.length (y.map (sel K ρ)) ((sigy.getD (y.map fun _ _ => 1)).map (sel K ρ)) per =
        fun i => plOne S H s x.length y (sigy.getD (y.map fun _ _ => 1)) per (ρ i) := by
      funext i; exact plOne_sel ρ S H s _ _ _ per i
    rw [e]
    refine seqFin_sel ρ _ _ _ (SplineOut.mapL (sel K ρ)) (fun z => ?_) h
    have := spline_map (sel K ρ) inv hS s.xk ((List.range s.xk.length).map fun k i => z i k) 1 [] [] per s.extrap
    simp only [Spl.bcMap, List.map_nil, List.map_map] at this
    exact this

/-- If every single component can be fitted, so can all of them together. -/
theorem splfit_joint (hm : 0 < m) {S : Scipy K} {xk x : List K} {y : List (Fin m → K)} {sigy : Option (List (Fin m → K))} {n : ℕ}
    {nc : Option ℤ} {lo hi : List (Fin m → K)} {per : Bool} {extrap : Option (ℕ × ℕ)}
    (h : ∀ i : Fin m, ∃ r, splfit S xk x (y.map (sel K fun _ : Fin 1 => i)) (sigy.map (List.map (sel K fun _ : Fin 1 => i))) n nc
      (lo.map (sel K fun _ : Fin 1 => i)) (hi.map (sel K fun _ : Fin 1 => i)) per extrap = .ok r) :
    ∃ r, splfit S xk x y sigy n nc lo hi per extrap = .ok r := by
  simp only [splfit_form, sig_sel, List.length_map, splPrep_sel] at h ⊢
  cases hp : splPrep xk x y.length (sigy.getD (y.map fun _ _ => 1)).length n nc lo hi per extrap with
  | error e =>
    obtain ⟨r, hr⟩ := h ⟨0, hm⟩
    rw [hp] at hr; exact nomatch hr
  | ok r =>
    rw [hp] at h
    simp only [Except.bind, Except.map] at h ⊢
    have hz : ∀ i, ∃ z, splComp S n r.2 r.1 x.length y (sigy.getD (y.map fun _ _ => 1)) per i = .ok z := by
      intro i
      obtain ⟨q, hq⟩ := h i
      cases hs : seqFin 1 (splComp S n r.2 (r.1.sel fun _ : Fin 1 => i) x.length (y.map (sel K fun _ : Fin 1 => i))
        ((sigy.getD (y.map fun _ _ => 1)).map (sel K fun _ : Fin 1 => i)) per) with
      | error e => rw [hs] at hq; exact nomatch hq
      | ok z => exact ⟨z 0, by rw [← seqFin_ok.1 hs 0, splComp_sel]⟩
    choose z hz using hz
    rw [seqFin_ok.2 hz]
    simp only [Except.bind]
    obtain ⟨q, hq⟩ := h ⟨0, hm⟩
    have e : splComp S n r.2 (r.1.sel fun _ : Fin 1 => ⟨0, hm⟩) x.length (y.map (sel K fun _ : Fin 1 => (⟨0, hm⟩ : Fin m)))
        ((sigy.getD (y.map fun _ _ => 1)).map (sel K fun _ : Fin 1 => (⟨0, hm⟩ : Fin m))) per =
        fun i => splComp S n r.2 r.1 x.length y (sigy.getD (y.map fun _ _ => 1)) per ((fun _ : Fin 1 => ⟨0, hm⟩) i) := by
      funext i; exact splComp_sel _ S n r.2 r.1 _ _ _ per i
    rw [e, seqFin_ok.2 (fun i => hz _)] at hq
    simp only [Except.bind] at hq
    have := splFin_sel (fun _ : Fin 1 => (⟨0, hm⟩ : Fin m)) n r.2 r.1 per z
    rw [hq] at this
    cases hf : splFin n r.2 r.1 per z with
    | ok w => exact ⟨w, rfl⟩
    | error e => rw [hf] at this; exact nomatch this

theorem plfit_joint (hm : 0 < m) {inv : InvFun K} {S : Scipy K} (hS : ScipyOK S) {H : SolveH K} {xk x : List K} {y : List (Fin m → K)}
    {sigy : Option (List (Fin m → K))} {lo hi : List (Fin m → K)} {per : Bool} {extrap : Option (ℕ × ℕ)}
    (h : ∀ i : Fin m, ∃ r, plfit inv S H xk x (y.map (sel K fun _ : Fin 1 => i)) (sigy.map (List.map (sel K fun _ : Fin 1 => i)))
      (lo.map (sel K fun _ : Fin 1 => i)) (hi.map (sel K fun _ : Fin 1 => i)) per extrap = .ok r) :
    ∃ r, plfit inv S H xk x y sigy lo hi per extrap = .ok r := by
  simp only [plfit_form, sig_sel, List.length_map, plPrep_sel] at h ⊢
  cases hp : plPrep xk x y.length (sigy.getD (y.map fun _ _ => 1)).length lo hi per extrap with
  | error e =>
    obtain ⟨r, hr⟩ := h ⟨0, hm⟩
    rw [hp] at hr; exact nomatch hr
  | ok r =>
    rw [hp] at h
    simp only [Except.bind, Except.map] at h ⊢
    have hz : ∀ i, ∃ z, plOne S H r x.length y (sigy.getD (y.map fun _ _ => 1)) per i = .ok z := by
      intro i
      obtain ⟨q, hq⟩ := h i
      cases hs : seqFin 1 (plOne S H (r.sel fun _ : Fin 1 => i) x.length (y.map (sel K fun _ : Fin 1 => i))
        ((sigy.getD (y.map fun _ _ => 1)).map (sel K fun _ : Fin 1 => i)) per) with
      | error e => rw [hs] at hq; exact nomatch hq
      | ok z => exact ⟨z 0, by rw [← seqFin_ok.1 hs 0, plOne_sel]⟩
    choose z hz using hz
    rw [seqFin_ok.2 hz]
    simp only [Except.bind]
    obtain ⟨q, hq⟩ := h ⟨0, hm⟩
    have e : plOne S H (r.sel fun _ : Fin 1 => ⟨0, hm⟩) x.length (y.map (sel K fun _ : Fin 1 => (⟨0, hm⟩ : Fin m)))
        ((sigy.getD (y.map fun _ _ => 1)).map (sel K fun _ : Fin 1 => (⟨0, hm⟩ : Fin m))) per =
        fun i => plOne S H r x.length y (sigy.getD (y.map fun _ _ => 1)) per ((fun _ : Fin 1 => ⟨0, hm⟩) i) := by
      funext i; exact plOne_sel _ S H r _ _ _ per i
    rw [e, seqFin_ok.2 (fun i => hz _)] at hq
    simp only [Except.bind] at hq
    have := spline_map (sel K fun _ : Fin 1 => (⟨0, hm⟩ : Fin m)) inv hS r.xk ((List.range r.xk.length).map fun k i => z i k) 1 [] [] per r.extrap
    simp only [Spl.bcMap, List.map_nil, List.map_map] at this
    cases hf : pline inv S r.xk ((List.range r.xk.length).map fun k i => z i k) r.extrap per with
    | ok w => exact ⟨w, rfl⟩
    | error e =>
      unfold pline at hf hq
      rw [hf] at this
      have h2 := hq.symm.trans this
      exact nomatch h2

end Fit
end Npplus
