import Verif.Lemmas.FitForm

/-!
# C80 and C84: fits of several curves, and the order of the data
-/

set_option linter.unusedSectionVars false

namespace Npplus
open Spec Finset Fit

variable {K : Type} [Field K] [LinearOrder K] [IsStrictOrderedRing K] [FloorRing K] {m : ℕ}

/-- Curve `i` of data for `m` curves, as data for one curve. -/
def onlyComp (i : Fin m) (l : List (Fin m → K)) : List (Fin 1 → K) := l.map fun v _ => v i

/-- **C80** — `splfit` of `m ≥ 1` curves returns exactly when it does for each curve alone (same knots, `x`, options; the curve's own data,
errors and boundary values), and every curve of the joint fit, its derivatives and its costs are those of the fit of that curve alone. -/
theorem C80_splfit (hm : 0 < m) (S : Scipy K) (xk x : List K) (y : List (Fin m → K)) (sigy : Option (List (Fin m → K))) (n : ℕ)
    (nc : Option ℤ) (lo hi : List (Fin m → K)) (per : Bool) (extrap : Option (ℕ × ℕ)) :
    ((∃ r, splfit S xk x y sigy n nc lo hi per extrap = .ok r) ↔
      ∀ i, ∃ r, splfit S xk x (onlyComp i y) (sigy.map (onlyComp i)) n nc (onlyComp i lo) (onlyComp i hi) per extrap = .ok r) ∧
    ∀ f cost, splfit S xk x y sigy n nc lo hi per extrap = .ok (f, cost) → ∀ i g costi,
      splfit S xk x (onlyComp i y) (sigy.map (onlyComp i)) n nc (onlyComp i lo) (onlyComp i hi) per extrap = .ok (g, costi) →
        (∀ t, g.at t = (f.at t).map fun v _ => v i) ∧ (∀ t nd, g.atN t nd = (f.atN t nd).map (onlyComp i)) ∧
        costi.inner = cost.inner.map (onlyComp i) ∧ costi.lo = onlyComp i cost.lo ∧ costi.hi = onlyComp i cost.hi := by
  refine ⟨⟨fun ⟨r, hr⟩ i => ⟨_, splfit_sel (fun _ : Fin 1 => i) hr⟩, fun h => splfit_joint hm h⟩, ?_⟩
  intro f cost hf i g costi hg
  have h := splfit_sel (fun _ : Fin 1 => i) hf
  have h2 := hg.symm.trans h
  cases h2
  exact ⟨SplineOut.mapL_at _ f, SplineOut.mapL_atN _ f, rfl, rfl, rfl⟩

/-- **C80** — the same for `plfit`. -/
theorem C80_plfit (hm : 0 < m) (inv : InvFun K) {S : Scipy K} (hS : ScipyOK S) (H : SolveH K) (xk x : List K) (y : List (Fin m → K))
    (sigy : Option (List (Fin m → K))) (lo hi : List (Fin m → K)) (per : Bool) (extrap : Option (ℕ × ℕ)) :
    ((∃ r, plfit inv S H xk x y sigy lo hi per extrap = .ok r) ↔
      ∀ i, ∃ r, plfit inv S H xk x (onlyComp i y) (sigy.map (onlyComp i)) (onlyComp i lo) (onlyComp i hi) per extrap = .ok r) ∧
    ∀ f, plfit inv S H xk x y sigy lo hi per extrap = .ok f → ∀ i g,
      plfit inv S H xk x (onlyComp i y) (sigy.map (onlyComp i)) (onlyComp i lo) (onlyComp i hi) per extrap = .ok g →
        (∀ t, g.at t = (f.at t).map fun v _ => v i) ∧ ∀ t nd, g.atN t nd = (f.atN t nd).map (onlyComp i) := by
  refine ⟨⟨fun ⟨r, hr⟩ i => ⟨_, plfit_sel (fun _ : Fin 1 => i) hS hr⟩, fun h => plfit_joint hm hS h⟩, ?_⟩
  intro f hf i g hg
  have h := plfit_sel (fun _ : Fin 1 => i) hS hf
  have h2 := hg.symm.trans h
  cases h2
  exact ⟨SplineOut.mapL_at _ f, SplineOut.mapL_atN _ f⟩

/-! ### order -/

theorem sum_range_list {α β : Type} [AddCommMonoid β] (D : List α) (d : α) (f : α → β) :
    ∑ t ∈ range D.length, f (D.getD t d) = (D.map f).sum := by
  induction D with
  | nil => simp
  | cons a l ih =>
    rw [List.length_cons, sum_range_succ', List.map_cons, List.sum_cons, add_comm]
    simp only [List.getD_cons_zero, List.getD_cons_succ]
    rw [ih]

/-- A data point: abscissa, values, standard deviations. -/
abbrev Datum (K : Type) (m : ℕ) : Type := K × (Fin m → K) × (Fin m → K)

theorem bincount_data (D : List (Datum K m)) (ix : Datum K m → ℕ) (w : Datum K m → K) (k : ℕ) :
    bincount D.length (fun t => ix (D.getD t 0)) (fun t => w (D.getD t 0)) k = (D.map fun d => if ix d = k then w d else 0).sum :=
  sum_range_list D 0 fun d => if ix d = k then w d else 0

theorem bincount_perm {D D' : List (Datum K m)} (h : D.Perm D') (ix : Datum K m → ℕ) (w : Datum K m → K) (k : ℕ) :
    bincount D.length (fun t => ix (D.getD t 0)) (fun t => w (D.getD t 0)) k =
      bincount D'.length (fun t => ix (D'.getD t 0)) (fun t => w (D'.getD t 0)) k := by
  rw [bincount_data, bincount_data]
  exact (h.map _).sum_eq

theorem foldl_min_perm {l l' : List K} (h : l.Perm l') : amin l = amin l' := by
  by_cases hl : l = []
  · subst hl; rw [h.nil_eq]
  have hl' : l' ≠ [] := fun h' => hl (by subst h'; exact h.eq_nil)
  obtain ⟨a1, a2⟩ := amin_spec hl
  obtain ⟨b1, b2⟩ := amin_spec hl'
  exact le_antisymm (a2 _ (h.mem_iff.2 b1)) (b2 _ (h.mem_iff.1 a1))

theorem foldl_max_perm {l l' : List K} (h : l.Perm l') : amax l = amax l' := by
  by_cases hl : l = []
  · subst hl; rw [h.nil_eq]
  have hl' : l' ≠ [] := fun h' => hl (by subst h'; exact h.eq_nil)
  obtain ⟨a1, a2⟩ := amax_spec hl
  obtain ⟨b1, b2⟩ := amax_spec hl'
  exact le_antisymm (b2 _ (h.mem_iff.1 a1)) (a2 _ (h.mem_iff.2 b1))

/-- Only the abscissas of the prepared data depend on the order. -/
theorem setup_perm {x x' : List K} (h : x.Perm x') (xk : List K) (lo hi : List (Fin m → K)) (per : Bool) (extrap : Option (ℕ × ℕ)) :
    (∃ e, setup xk x lo hi per extrap = .error e ∧ setup xk x' lo hi per extrap = .error e) ∨
    ∃ (s : Setup K m) (f : K → K), setup xk x lo hi per extrap = .ok { s with x := x.map f } ∧
      setup xk x' lo hi per extrap = .ok { s with x := x'.map f } := by
  unfold setup
  simp only [bind, Except.bind, pure, Except.pure, throw, throwThe, MonadExceptOf.throw]
  by_cases h1 : (per = true) ∧ (lo ≠ [] ∨ hi ≠ [] ∨ extrap ≠ none)
  · simp only [if_pos h1]; exact Or.inl ⟨_, rfl, rfl⟩
  simp only [if_neg h1]
  by_cases h2 : xk.length < 2
  · simp only [if_pos h2]; exact Or.inl ⟨_, rfl, rfl⟩
  simp only [if_neg h2]
  have hnil : x' = [] ↔ x = [] := ⟨fun e => by subst e; exact h.eq_nil, fun e => by subst e; exact h.symm.eq_nil⟩
  simp only [← foldl_min_perm h, ← foldl_max_perm h, hnil]
  cases per with
  | true =>
    simp only [if_true]
    generalize (if xk.getD (xk.length - 1) 0 < xk.getD 0 0 then (xk.reverse, hi, lo, extrap.map fun e => (e.2, e.1)) else (xk, lo, hi, extrap)) = q
    exact Or.inr ⟨⟨q.1, [], q.2.1, q.2.2.1, q.2.2.2⟩, fun t => pmod (t - q.1.getD 0 0) (q.1.getD (q.1.length - 1) 0 - q.1.getD 0 0) + q.1.getD 0 0, rfl, rfl⟩
  | false =>
    simp only [Bool.false_eq_true, if_false]
    generalize (if xk.getD (xk.length - 1) 0 < xk.getD 0 0 then (xk.reverse, hi, lo, extrap.map fun e => (e.2, e.1)) else (xk, lo, hi, extrap)) = q
    obtain ⟨xk, lo, hi, extrap⟩ := q
    simp only
    by_cases h3 : x = []
    · simp only [if_pos h3]; exact Or.inl ⟨_, rfl, rfl⟩
    simp only [if_neg h3]
    by_cases h4 : amin x < xk.getD 0 0 ∧ lo ≠ []
    · simp only [if_pos h4]; exact Or.inl ⟨_, rfl, rfl⟩
    simp only [if_neg h4]
    by_cases h5 : xk.getD (xk.length - 1) 0 < amax x ∧ hi ≠ []
    · simp only [if_pos h5]; exact Or.inl ⟨_, rfl, rfl⟩
    simp only [if_neg h5]
    refine Or.inr ⟨⟨(if amin x < xk.getD 0 0 then [amin x] else []) ++ xk ++
      if xk.getD (xk.length - 1) 0 < amax x then [amax x] else [], [], lo, hi, extrap⟩, id, ?_, ?_⟩
    · rw [List.map_id]
    · rw [List.map_id]

theorem splSys_congr {n nc nk1 : ℕ} {dx : ℕ → K} {N N' : ℕ} {ix ix' : ℕ → ℕ} {x x' y y' w w' : ℕ → K} {lo hi : List K} {per : Bool}
    (h1 : ∀ p j, bincount N ix (fun t => w t * x t ^ p) j = bincount N' ix' (fun t => w' t * x' t ^ p) j)
    (h2 : ∀ p j, bincount N ix (fun t => w t * x t ^ p * y t) j = bincount N' ix' (fun t => w' t * x' t ^ p * y' t) j) :
    splSys n nc nk1 dx N ix x y w lo hi per = splSys n nc nk1 dx N' ix' x' y' w' lo hi per := by
  unfold splSys
  simp only [h1, h2]

theorem plComp_congr {S : Scipy K} {H : SolveH K} {nun N N' : ℕ} {ix ix' : ℕ → ℕ} {p p' y y' w w' : ℕ → K} {lo hi : Option K} {per : Bool}
    (h1 : ∀ k, bincount N ix (fun t => w t * (1 - p t) * (1 - p t)) k = bincount N' ix' (fun t => w' t * (1 - p' t) * (1 - p' t)) k)
    (h2 : ∀ k, bincount N (fun t => 1 + ix t) (fun t => w t * p t * p t) k = bincount N' (fun t => 1 + ix' t) (fun t => w' t * p' t * p' t) k)
    (h3 : ∀ k, bincount N ix (fun t => w t * p t * (1 - p t)) k = bincount N' ix' (fun t => w' t * p' t * (1 - p' t)) k)
    (h4 : ∀ k, bincount N ix (fun t => w t * (1 - p t) * y t) k = bincount N' ix' (fun t => w' t * (1 - p' t) * y' t) k)
    (h5 : ∀ k, bincount N (fun t => 1 + ix t) (fun t => w t * p t * y t) k = bincount N' (fun t => 1 + ix' t) (fun t => w' t * p' t * y' t) k) :
    plComp S H nun N ix p y w lo hi per = plComp S H nun N' ix' p' y' w' lo hi per := by
  unfold plComp
  simp only [h1, h2, h3, h4, h5]

/-- A sum over the data of one interval does not depend on their order. -/
theorem bincount_order {D D' : List (Datum K m)} (h : D.Perm D') (xk : List K) (f : K → K) (a : ℕ → ℕ)
    (g : K → (Fin m → K) → (Fin m → K) → K) (j : ℕ) :
    bincount D.length (fun t => a (index xk (((D.map fun d => d.1).map f).getD t 0)))
      (fun t => g (((D.map fun d => d.1).map f).getD t 0) ((D.map fun d => d.2.1).getD t 0) ((D.map fun d => d.2.2).getD t 0)) j =
    bincount D'.length (fun t => a (index xk (((D'.map fun d => d.1).map f).getD t 0)))
      (fun t => g (((D'.map fun d => d.1).map f).getD t 0) ((D'.map fun d => d.2.1).getD t 0) ((D'.map fun d => d.2.2).getD t 0)) j := by
  have e1 : ∀ (D : List (Datum K m)) t, t < D.length → ((D.map fun d => d.1).map f).getD t 0 = f (D.getD t 0).1 := by
    intro D t ht
    rw [List.map_map, List.getD_eq_getElem _ _ (by simpa using ht), List.getD_eq_getElem _ _ ht]; simp
  have e2 : ∀ (D : List (Datum K m)) t, (D.map fun d => d.2.1).getD t 0 = (D.getD t 0).2.1 := by
    intro D t
    exact List.getD_map (f := fun d : Datum K m => d.2.1) (l := D) (n := t) (d := 0)
  have e3 : ∀ (D : List (Datum K m)) t, (D.map fun d => d.2.2).getD t 0 = (D.getD t 0).2.2 := by
    intro D t
    exact List.getD_map (f := fun d : Datum K m => d.2.2) (l := D) (n := t) (d := 0)
  have bc : ∀ (D : List (Datum K m)),
      bincount D.length (fun t => a (index xk (((D.map fun d => d.1).map f).getD t 0)))
        (fun t => g (((D.map fun d => d.1).map f).getD t 0) ((D.map fun d => d.2.1).getD t 0) ((D.map fun d => d.2.2).getD t 0)) j =
      bincount D.length (fun t => a (index xk (f (D.getD t 0).1))) (fun t => g (f (D.getD t 0).1) (D.getD t 0).2.1 (D.getD t 0).2.2) j := by
    intro D
    unfold bincount
    refine sum_congr rfl fun t ht => ?_
    rw [mem_range] at ht
    beta_reduce
    rw [e1 D t ht, e2, e3]
  rw [bc, bc]
  exact bincount_perm h (fun d => a (index xk (f d.1))) (fun d => g (f d.1) d.2.1 d.2.2) j

/-- **C84** — reordering the data points (each with its values and standard deviations) does not change what `splfit` returns or raises. -/
theorem C84_splfit_order {D D' : List (Datum K m)} (h : D.Perm D') (S : Scipy K) (xk : List K) (n : ℕ) (nc : Option ℤ)
    (lo hi : List (Fin m → K)) (per : Bool) (extrap : Option (ℕ × ℕ)) :
    splfit S xk (D.map fun d => d.1) (D.map fun d => d.2.1) (some (D.map fun d => d.2.2)) n nc lo hi per extrap =
      splfit S xk (D'.map fun d => d.1) (D'.map fun d => d.2.1) (some (D'.map fun d => d.2.2)) n nc lo hi per extrap := by
  rw [splfit_form, splfit_form]
  unfold splPrep
  simp only [Option.getD_some, List.length_map]
  rcases setup_perm (h.map fun d => d.1) xk lo hi per extrap with ⟨e, h1, h2⟩ | ⟨s, f, h1, h2⟩
  · simp only [h1, h2, Except.bind]
  rw [h1, h2]
  simp only [Except.bind, ne_eq, not_true_eq_false, if_false]
  have key : ∀ (k : ℕ), splComp S n k { s with x := (D.map fun d => d.1).map f } D.length (D.map fun d => d.2.1) (D.map fun d => d.2.2) per =
      splComp S n k { s with x := (D'.map fun d => d.1).map f } D'.length (D'.map fun d => d.2.1) (D'.map fun d => d.2.2) per := by
    intro k
    funext i
    unfold splComp sysOf
    simp only
    have := splSys_congr (n := n) (nc := k) (nk1 := s.xk.length - 1) (dx := Spl.width s.xk) (lo := s.lo.map (· i)) (hi := s.hi.map (· i)) (per := per)
      (fun p j => bincount_order h s.xk f id (fun x _ σ => 1 / (σ i * σ i) * ((x - s.xk.getD (index s.xk x) 0) * (1 / Spl.width s.xk (index s.xk x))) ^ p) j)
      (fun p j => bincount_order h s.xk f id (fun x y σ => 1 / (σ i * σ i) * ((x - s.xk.getD (index s.xk x) 0) * (1 / Spl.width s.xk (index s.xk x))) ^ p * y i) j)
    simp only [id] at this
    rw [this]
  have fin : ∀ (k : ℕ), splFin n k { s with x := (D.map fun d => d.1).map f } per = splFin n k { s with x := (D'.map fun d => d.1).map f } per := fun _ => rfl
  cases nc with
  | none =>
    simp only
    by_cases h4 : 1 + ((n : ℤ) - 1) < ((max s.lo.length s.hi.length : ℕ) : ℤ)
    · simp only [if_pos h4]
    simp only [if_neg h4]
    by_cases h5 : (n : ℤ) - 1 < 0
    · simp only [if_pos h5]
    simp only [if_neg h5]
    rw [key, fin]
  | some k =>
    simp only
    by_cases hk : k < 0 ∨ (n : ℤ) ≤ k
    · simp only [if_pos hk]
    simp only [if_neg hk]
    by_cases h4 : 1 + k < ((max s.lo.length s.hi.length : ℕ) : ℤ)
    · simp only [if_pos h4]
    simp only [if_neg h4]
    by_cases h5 : k < 0
    · simp only [if_pos h5]
    simp only [if_neg h5]
    rw [key, fin]

/-- **C84** — the same for `plfit`. -/
theorem C84_plfit_order {D D' : List (Datum K m)} (h : D.Perm D') (inv : InvFun K) (S : Scipy K) (H : SolveH K) (xk : List K)
    (lo hi : List (Fin m → K)) (per : Bool) (extrap : Option (ℕ × ℕ)) :
    plfit inv S H xk (D.map fun d => d.1) (D.map fun d => d.2.1) (some (D.map fun d => d.2.2)) lo hi per extrap =
      plfit inv S H xk (D'.map fun d => d.1) (D'.map fun d => d.2.1) (some (D'.map fun d => d.2.2)) lo hi per extrap := by
  rw [plfit_form, plfit_form]
  unfold plPrep
  simp only [Option.getD_some, List.length_map]
  rcases setup_perm (h.map fun d => d.1) xk lo hi per extrap with ⟨e, h1, h2⟩ | ⟨s, f, h1, h2⟩
  · simp only [h1, h2, Except.bind]
  rw [h1, h2]
  simp only [Except.bind, ne_eq, not_true_eq_false, if_false]
  have key : plOne S H { s with x := (D.map fun d => d.1).map f } D.length (D.map fun d => d.2.1) (D.map fun d => d.2.2) per =
      plOne S H { s with x := (D'.map fun d => d.1).map f } D'.length (D'.map fun d => d.2.1) (D'.map fun d => d.2.2) per := by
    funext i
    unfold plOne
    simp only
    apply plComp_congr <;> intro k
    · exact bincount_order h s.xk f id (fun x _ σ => 1 / (σ i * σ i) * (1 - ((x - s.xk.getD (index s.xk x) 0) * (1 / Spl.width s.xk (index s.xk x)))) * (1 - ((x - s.xk.getD (index s.xk x) 0) * (1 / Spl.width s.xk (index s.xk x))))) k
    · exact bincount_order h s.xk f (fun a => 1 + a) (fun x _ σ => 1 / (σ i * σ i) * ((x - s.xk.getD (index s.xk x) 0) * (1 / Spl.width s.xk (index s.xk x))) * ((x - s.xk.getD (index s.xk x) 0) * (1 / Spl.width s.xk (index s.xk x)))) k
    · exact bincount_order h s.xk f id (fun x _ σ => 1 / (σ i * σ i) * ((x - s.xk.getD (index s.xk x) 0) * (1 / Spl.width s.xk (index s.xk x))) * (1 - ((x - s.xk.getD (index s.xk x) 0) * (1 / Spl.width s.xk (index s.xk x))))) k
    · exact bincount_order h s.xk f id (fun x y σ => 1 / (σ i * σ i) * (1 - ((x - s.xk.getD (index s.xk x) 0) * (1 / Spl.width s.xk (index s.xk x)))) * y i) k
    · exact bincount_order h s.xk f (fun a => 1 + a) (fun x y σ => 1 / (σ i * σ i) * ((x - s.xk.getD (index s.xk x) 0) * (1 / Spl.width s.xk (index s.xk x))) * y i) k
  by_cases hlh : 1 < s.lo.length ∨ 1 < s.hi.length
  · simp only [if_pos hlh]
  simp only [if_neg hlh]
  rw [key]

/-- **C84** — the same without standard deviations. -/
theorem C84_order_default {D D' : List (K × (Fin m → K))} (h : D.Perm D') (inv : InvFun K) (S : Scipy K) (H : SolveH K) (xk : List K) (n : ℕ)
    (nc : Option ℤ) (lo hi : List (Fin m → K)) (per : Bool) (extrap : Option (ℕ × ℕ)) :
    splfit S xk (D.map fun d => d.1) (D.map fun d => d.2) none n nc lo hi per extrap =
      splfit S xk (D'.map fun d => d.1) (D'.map fun d => d.2) none n nc lo hi per extrap ∧
    plfit inv S H xk (D.map fun d => d.1) (D.map fun d => d.2) none lo hi per extrap =
      plfit inv S H xk (D'.map fun d => d.1) (D'.map fun d => d.2) none lo hi per extrap := by
  have e1 : ∀ D : List (K × (Fin m → K)), splfit S xk (D.map fun d => d.1) (D.map fun d => d.2) none n nc lo hi per extrap =
      splfit S xk ((D.map fun d => (d.1, d.2, fun _ => 1)).map fun d : Datum K m => d.1) ((D.map fun d => (d.1, d.2, fun _ => 1)).map fun d : Datum K m => d.2.1)
        (some ((D.map fun d => (d.1, d.2, fun _ => 1)).map fun d : Datum K m => d.2.2)) n nc lo hi per extrap := by
    intro D
    rw [splfit_form, splfit_form]
    simp only [Option.getD_none, Option.getD_some, List.map_map]
    rfl
  have e2 : ∀ D : List (K × (Fin m → K)), plfit inv S H xk (D.map fun d => d.1) (D.map fun d => d.2) none lo hi per extrap =
      plfit inv S H xk ((D.map fun d => (d.1, d.2, fun _ => 1)).map fun d : Datum K m => d.1) ((D.map fun d => (d.1, d.2, fun _ => 1)).map fun d : Datum K m => d.2.1)
        (some ((D.map fun d => (d.1, d.2, fun _ => 1)).map fun d : Datum K m => d.2.2)) lo hi per extrap := by
    intro D
    rw [plfit_form, plfit_form]
    simp only [Option.getD_none, Option.getD_some, List.map_map]
    rfl
  rw [e1, e1, e2, e2]
  exact ⟨C84_splfit_order (h.map _) .., C84_plfit_order (h.map _) ..⟩

/-- Non-trivial instance of the hypotheses of C84: a reordering with a standard deviation that differs from point to point. -/
example : ([(0, ![1], ![1]), (1, ![3], ![2]), (1/2, ![5], ![1])] : List (Datum ℚ 1)).Perm [(1/2, ![5], ![1]), (0, ![1], ![1]), (1, ![3], ![2])] :=
  (List.perm_middle (l₁ := [(0, ![1], ![1]), (1, ![3], ![2])]) (l₂ := []))

end Npplus
