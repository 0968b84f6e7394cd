import Verif.Model.FitNd
import Verif.Props.FitComp
import Verif.Props.SplfitCost
import Verif.Props.PlfitOk
import Verif.Lemmas.NdArr
import Verif.Lemmas.Ravel

/-!
# C80: fits of arrays of any shape
-/

set_option linter.unusedSectionVars false

namespace Npplus
open Spec Finset Fit

variable {K : Type} [Field K] [LinearOrder K] [IsStrictOrderedRing K] [FloorRing K]

theorem rdim_append (a b : List ℕ) (k : ℕ) : rdim (a ++ b) k = if k < b.length then rdim b k else rdim a (k - b.length) := by
  unfold rdim
  rw [List.reverse_append]
  by_cases h : k < b.length
  · rw [if_pos h, List.getD_append _ _ _ _ (by simpa using h)]
  · rw [if_neg h, List.getD_append_right _ _ _ _ (by simpa using h)]; simp

theorem common_len {x ys B : List ℕ} (hl : ys.length = x.length) (h : Spec.Common [x, ys] B) : B.length = x.length := by
  obtain ⟨s, hs, e⟩ := h.maxlen
  simp only [List.mem_cons, List.not_mem_nil, or_false] at hs
  rcases hs with rfl | rfl <;> omega

theorem common_lead {x ys B : List ℕ} (hl : ys.length = x.length) (h : Spec.Common [x, ys] B) (lead : List ℕ) :
    Spec.Common [lead ++ ys, x] (lead ++ B) := by
  have hB := common_len hl h
  refine ⟨?_, ⟨lead ++ ys, by simp, by simp; omega⟩, ?_, ?_⟩
  · intro s hs
    simp only [List.mem_cons, List.not_mem_nil, or_false] at hs
    rcases hs with rfl | rfl <;> simp <;> omega
  · intro s hs k
    simp only [List.mem_cons, List.not_mem_nil, or_false] at hs
    rcases hs with rfl | rfl
    · rw [rdim_append, rdim_append, hB, hl]
      by_cases hk : k < x.length
      · simp only [if_pos hk]; exact h.fits ys (by simp) k
      · simp [if_neg hk]
    · by_cases hk : k < s.length
      · rw [rdim_append, if_pos (by omega)]; exact h.fits s (by simp) k
      · exact Or.inr (rdim_of_ge (by omega))
  · intro k
    by_cases hk : k < x.length
    · obtain ⟨s, hs, e⟩ := h.hit k
      simp only [List.mem_cons, List.not_mem_nil, or_false] at hs
      rcases hs with rfl | rfl
      · exact ⟨s, by simp, by rw [e, rdim_append, if_pos (by omega)]⟩
      · exact ⟨lead ++ s, by simp, by rw [rdim_append, rdim_append, if_pos (by omega), if_pos (by omega), e]⟩
    · exact ⟨lead ++ ys, by simp, by rw [rdim_append, rdim_append, if_neg (by omega), if_neg (by omega), hB, hl]⟩

theorem common_self {x ys B : List ℕ} (h : Spec.Common [x, ys] B) : Spec.Common [x, B] B := by
  refine ⟨?_, ⟨B, by simp, rfl⟩, ?_, fun k => ⟨B, by simp, rfl⟩⟩
  · intro s hs
    simp only [List.mem_cons, List.not_mem_nil, or_false] at hs
    rcases hs with rfl | rfl
    · exact h.len s (by simp)
    · exact le_rfl
  · intro s hs k
    simp only [List.mem_cons, List.not_mem_nil, or_false] at hs
    rcases hs with rfl | rfl
    · exact h.fits s (by simp) k
    · exact Or.inl rfl

namespace Fit

/-- Element `t` (in C order) of the points of an array broadcast to the shape `lead ++ B`, for the leading index `i`; `lead` has at most one
axis. -/
def pointVals (lead B : List ℕ) (m : ℕ) (a : NdArr K) : List (Fin m → K) :=
  (List.range B.prod).map fun t i => bget a ((lead.map fun _ => i.1) ++ NdArr.unravel B t)

/-- A boundary value broadcast to the shape `lead`. -/
def bcVal (lead : List ℕ) (m : ℕ) (a : NdArr K) : Fin m → K := fun i => bget a (lead.map fun _ => i.1)

/-- The abscissas, broadcast to the shape `B` of the points. -/
def pointXs (B : List ℕ) (x : NdArr K) : List K := (List.range B.prod).map fun t => bget x (NdArr.unravel B t)

theorem lead_cases {lead : List ℕ} (h : lead.length ≤ 1) : lead = [] ∨ ∃ m, lead = [m] := by
  match lead, h with
  | [], _ => exact Or.inl rfl
  | [m], _ => exact Or.inr ⟨m, rfl⟩
  | _ :: _ :: _, h => simp at h

theorem columns_reshape {lead B : List ℕ} (hlead : lead.length ≤ 1) {a : NdArr K} (ha : a.shape = lead ++ B) {sh : List ℕ}
    (hsh : sh = [lead.headD 1, B.prod]) {m N : ℕ} (hm : m = lead.headD 1) (hN : N = B.prod) :
    ∃ b, a.reshape sh = .ok b ∧ b.shape = sh ∧
      columns m N b = (List.range B.prod).map fun t i => a.get ((lead.map fun _ => i.1) ++ NdArr.unravel B t) := by
  subst hm hN hsh
  unfold NdArr.reshape
  have hp : [lead.headD 1, B.prod].prod = a.shape.prod := by
    rw [ha, List.prod_append]
    match lead, hlead with
    | [], _ => simp
    | [m], _ => simp
    | _ :: _ :: _, h => simp at h
  rw [if_pos hp]
  refine ⟨_, rfl, rfl, ?_⟩
  unfold columns
  apply List.map_congr_left
  intro t ht
  rw [List.mem_range] at ht
  funext i
  have hi := i.2
  simp only [NdArr.ofList, ravelIdx, List.prod_cons, List.prod_nil, mul_one, add_zero]
  have hlt : i.1 * B.prod + t < a.shape.prod := by
    rw [← hp]
    simp only [List.prod_cons, List.prod_nil, mul_one]
    calc i.1 * B.prod + t < i.1 * B.prod + B.prod := by omega
      _ = (i.1 + 1) * B.prod := by ring
      _ ≤ _ := Nat.mul_le_mul_right _ hi
  unfold NdArr.toList
  rw [List.getD_eq_getElem _ _ (by simpa using hlt)]
  simp only [List.getElem_map, List.getElem_range]
  congr 1
  rw [ha]
  clear hlt hp ha
  rcases lead_cases hlead with rfl | ⟨m, rfl⟩
  · have : i.1 = 0 := by simp only [List.headD_nil] at hi; omega
    simp [this]
  · have hp : 0 < B.prod := by omega
    simp only [List.cons_append, List.nil_append, NdArr.unravel, List.map_cons, List.map_nil, List.cons.injEq]
    rw [show i.1 * B.prod + t = t + B.prod * i.1 by ring, Nat.add_mul_div_left _ _ hp, Nat.add_mul_mod_self_left, Nat.div_eq_of_lt ht,
      Nat.mod_eq_of_lt ht, zero_add]
    exact ⟨rfl, rfl⟩

theorem mapM_bc {lead : List ℕ} (hlead : lead.length ≤ 1) : ∀ {lo : List (NdArr K)}, (∀ bc ∈ lo, Spec.Common [bc.shape, lead] lead) →
    ∃ l, (lo.mapM fun bc => (bc.zip (· + ·) (NdArr.zeros lead : NdArr K)).map NdArr.toList) = .ok l ∧
      bcVals (lead.headD 1) l = lo.map (bcVal lead _) ∧ ∀ v ∈ l, lead.headD 1 ≠ 0 → v ≠ []
  | [], _ => ⟨[], rfl, rfl, by simp⟩
  | bc :: lo, h => by
    obtain ⟨l, h1, h2, h3⟩ := mapM_bc hlead (lo := lo) fun b hb => h b (by simp [hb])
    have hz := NdArr.zip_ok_of (f := (· + ·)) (a := bc) (b := (NdArr.zeros lead : NdArr K)) (h bc (by simp))
    refine ⟨(NdArr.toList (⟨lead, fun idx => bget bc idx + bget (NdArr.zeros lead : NdArr K) idx⟩ : NdArr K)) :: l, ?_, ?_, ?_⟩
    · rw [List.mapM_cons, hz, h1]
      rfl
    · simp only [bcVals, List.map_cons] at h2 ⊢
      rw [h2]
      congr 1
      funext i
      have hi := i.2
      unfold NdArr.toList
      have hlt : i.1 < lead.prod := by
        clear h3 h2 h1 hz
        rcases lead_cases hlead with rfl | ⟨m, rfl⟩
        · simpa using hi
        · simpa using hi
      rw [List.getD_eq_getElem _ _ (by simpa using hlt)]
      simp only [List.getElem_map, List.getElem_range]
      have hu : NdArr.unravel lead i.1 = lead.map fun _ => i.1 := by
        match lead, hlead with
        | [], _ => rfl
        | [m], _ => simp [NdArr.unravel]
        | _ :: _ :: _, h => simp at h
      rw [hu]
      have : bget (NdArr.zeros lead : NdArr K) (lead.map fun _ => i.1) = 0 := rfl
      rw [this, add_zero]; rfl
    · intro v hv hne
      rcases List.mem_cons.1 hv with rfl | hv
      · intro he
        have hl := congrArg List.length he
        simp only [NdArr.toList, List.length_map, List.length_range, List.length_nil] at hl
        match lead, hlead with
        | [], _ => simp at hl
        | [m], _ => simp at hl hne; omega
        | _ :: _ :: _, h => simp at h
      · exact h3 v hv hne

/-- What `_splfit_args` makes of conforming arguments with at most one leading axis. -/
theorem splfitArgs_ok {x y : NdArr K} {sigy : Option (NdArr K)} {lo hi : List (NdArr K)} {lead ys B : List ℕ} (hlead : lead.length ≤ 1)
    (hy : y.shape = lead ++ ys) (hl : ys.length = x.shape.length) (hB : Spec.Common [x.shape, ys] B)
    (hsig : ∀ s ∈ sigy, Spec.Common [s.shape, lead ++ B] (lead ++ B))
    (hlo : ∀ bc ∈ lo, Spec.Common [bc.shape, lead] lead) (hhi : ∀ bc ∈ hi, Spec.Common [bc.shape, lead] lead) :
    ∃ a, splfitArgs x y sigy lo hi = .ok a ∧ a.x = pointXs B x ∧ a.y.shape = [lead.headD 1, B.prod] ∧ a.yshape = lead ∧
      columns (lead.headD 1) B.prod a.y = pointVals lead B _ y ∧
      columns (lead.headD 1) B.prod a.sig = (sigy.map (pointVals lead B _)).getD ((pointVals lead B (lead.headD 1) y).map fun _ _ => 1) ∧
      bcVals (lead.headD 1) a.lo = lo.map (bcVal lead _) ∧ bcVals (lead.headD 1) a.hi = hi.map (bcVal lead _) ∧
      ∀ v ∈ a.lo ++ a.hi, lead.headD 1 ≠ 0 → v ≠ [] := by
  have hBl := common_len hl hB
  unfold splfitArgs
  simp only [bind, Except.bind, pure, Except.pure]
  have h1 := NdArr.zip_ok_of (f := (· + ·)) (a := y) (b := (NdArr.zeros x.shape : NdArr K)) (sh := lead ++ B)
    (by rw [hy]; exact common_lead hl hB lead)
  rw [h1]
  simp only
  have hk : (if (y.shape.length : ℤ) - x.shape.length < 0 then (y.shape.length : ℤ) - x.shape.length + ((lead ++ B).length : ℕ)
      else (y.shape.length : ℤ) - x.shape.length).toNat = lead.length := by
    rw [hy, List.length_append, hl]
    rw [if_neg (by push_cast; omega)]
    omega
  rw [hk, List.drop_left, List.take_left]
  have h2 := NdArr.zip_ok_of (f := (· + ·)) (a := x) (b := (NdArr.zeros B : NdArr K)) (sh := B) (common_self hB)
  rw [h2]
  simp only
  have hxs : NdArr.toList (⟨B, fun idx => bget x idx + bget (NdArr.zeros B : NdArr K) idx⟩ : NdArr K) = pointXs B x := by
    unfold NdArr.toList pointXs
    apply List.map_congr_left
    intro t _
    have : bget (NdArr.zeros B : NdArr K) (NdArr.unravel B t) = 0 := rfl
    simp only [this, add_zero]
  have hxl : (pointXs B x).length = B.prod := by simp [pointXs]
  have hshape : (if (y.shape.length : ℤ) - x.shape.length ≠ 0 then lead else [1]) ++ [(pointXs B x).length] = [lead.headD 1, B.prod] := by
    rw [hxl]
    match lead, hlead, hy with
    | [], _, hy => rw [if_neg (by rw [hy, List.nil_append, hl]; simp)]; rfl
    | [m], _, hy => rw [if_pos (by rw [hy, List.length_append, hl]; simp)]; rfl
    | _ :: _ :: _, h, _ => simp at h
  obtain ⟨b, hb1, hb2, hb3⟩ := columns_reshape hlead
    (a := (⟨lead ++ B, fun idx => bget y idx + bget (NdArr.zeros x.shape : NdArr K) idx⟩ : NdArr K)) rfl hshape rfl rfl
  have hb3' : columns (lead.headD 1) B.prod b = pointVals lead B _ y := by
    rw [hb3]
    unfold pointVals
    apply List.map_congr_left
    intro t _
    funext i
    have : bget (NdArr.zeros x.shape : NdArr K) ((lead.map fun _ => i.1) ++ NdArr.unravel B t) = 0 := rfl
    simp only [this, add_zero]
  obtain ⟨l1, hl1, hl2, hl3⟩ := mapM_bc hlead hlo
  obtain ⟨l2, hr1, hr2, hr3⟩ := mapM_bc hlead hhi
  have hbc : ∀ v ∈ l1 ++ l2, lead.headD 1 ≠ 0 → v ≠ [] := by
    intro v hv
    rcases List.mem_append.1 hv with hv | hv
    · exact hl3 v hv
    · exact hr3 v hv
  cases sigy with
  | none =>
    obtain ⟨c, hc1, hc2, hc3⟩ := columns_reshape hlead (a := (NdArr.ones (lead ++ B) : NdArr K)) rfl hshape rfl rfl
    simp only [hxs]
    rw [hb1]
    simp only
    rw [hc1]
    simp only
    rw [hl1]
    simp only
    rw [hr1]
    refine ⟨_, rfl, rfl, hb2.trans hshape, rfl, hb3', ?_, hl2, hr2, hbc⟩
    rw [hc3]
    simp only [Option.map_none, Option.getD_none, pointVals, List.map_map]
    rfl
  | some s =>
    have h3 := NdArr.zip_ok_of (f := (· + ·)) (a := s) (b := (NdArr.zeros (lead ++ B) : NdArr K)) (sh := lead ++ B) (hsig s rfl)
    obtain ⟨c, hc1, hc2, hc3⟩ := columns_reshape hlead
      (a := (⟨lead ++ B, fun idx => bget s idx + bget (NdArr.zeros (lead ++ B) : NdArr K) idx⟩ : NdArr K)) rfl hshape rfl rfl
    simp only
    rw [h3]
    simp only [hxs]
    rw [hb1]
    simp only
    rw [hc1]
    simp only
    rw [hl1]
    simp only
    rw [hr1]
    refine ⟨_, rfl, rfl, hb2.trans hshape, rfl, hb3', ?_, hl2, hr2, hbc⟩
    rw [hc3]
    simp only [Option.map_some, Option.getD_some, pointVals]
    apply List.map_congr_left
    intro t _
    funext i
    have : bget (NdArr.zeros (lead ++ B) : NdArr K) ((lead.map fun _ => i.1) ++ NdArr.unravel B t) = 0 := rfl
    simp only [this, add_zero]

/-! ### the checks before -/

theorem amin_congr {l l' : List K} (hl : l ≠ []) (h : ∀ t, t ∈ l ↔ t ∈ l') : amin l = amin l' := by
  have hl' : l' ≠ [] := fun e => by
    obtain ⟨a, ha⟩ := List.exists_mem_of_ne_nil l hl
    have := (h a).1 ha
    rw [e] at this; exact absurd this (by simp)
  obtain ⟨a1, a2⟩ := amin_spec hl
  obtain ⟨b1, b2⟩ := amin_spec hl'
  exact le_antisymm (a2 _ ((h _).2 b1)) (b2 _ ((h _).1 a1))

theorem amax_congr {l l' : List K} (hl : l ≠ []) (h : ∀ t, t ∈ l ↔ t ∈ l') : amax l = amax l' := by
  have hl' : l' ≠ [] := fun e => by
    obtain ⟨a, ha⟩ := List.exists_mem_of_ne_nil l hl
    have := (h a).1 ha
    rw [e] at this; exact absurd this (by simp)
  obtain ⟨a1, a2⟩ := amax_spec hl
  obtain ⟨b1, b2⟩ := amax_spec hl'
  exact le_antisymm (b2 _ ((h _).1 a1)) (a2 _ ((h _).2 b1))

/-- The exceptions of `setup` depend only on the set of the abscissas and on whether there are boundary conditions. -/
theorem setup_same {m p : ℕ} {x x' : List K} (hne : x ≠ []) (h : ∀ t, t ∈ x ↔ t ∈ x') (xk : List K) {lo hi : List (Fin m → K)}
    {lo' hi' : List (Fin p → K)} (h1 : lo.length = lo'.length) (h2 : hi.length = hi'.length) (per : Bool) (extrap : Option (ℕ × ℕ)) :
    (setup xk x lo hi per extrap).map (fun s => (s.lo.length, s.hi.length)) = (setup xk x' lo' hi' per extrap).map fun s => (s.lo.length, s.hi.length) := by
  have hne' : x' ≠ [] := fun e => by
    obtain ⟨a, ha⟩ := List.exists_mem_of_ne_nil x hne
    have := (h a).1 ha
    rw [e] at this; exact absurd this (by simp)
  have e1 : lo = [] ↔ lo' = [] := by rw [← List.length_eq_zero_iff, h1, List.length_eq_zero_iff]
  have e2 : hi = [] ↔ hi' = [] := by rw [← List.length_eq_zero_iff, h2, List.length_eq_zero_iff]
  unfold setup
  simp only [bind, Except.bind, pure, Except.pure, throw, throwThe, MonadExceptOf.throw, ne_eq, e1, e2]
  by_cases c1 : (per = true) ∧ (¬ lo' = [] ∨ ¬ hi' = [] ∨ ¬ extrap = none)
  · simp only [if_pos c1]; rfl
  simp only [if_neg c1]
  by_cases c2 : xk.length < 2
  · simp only [if_pos c2]; rfl
  simp only [if_neg c2, ← amin_congr hne h, ← amax_congr hne h]
  by_cases hd : xk.getD (xk.length - 1) 0 < xk.getD 0 0
  · simp only [hd, if_true]
    cases per with
    | true => simp only [if_true, Except.map, h1, h2]
    | false =>
      simp only [Bool.false_eq_true, if_false, if_neg hne, if_neg hne', e1, e2]
      split
      · rfl
      split
      · rfl
      · simp only [Except.map, h1, h2]
  · simp only [hd, if_false]
    cases per with
    | true => simp only [if_true, Except.map, h1, h2]
    | false =>
      simp only [Bool.false_eq_true, if_false, if_neg hne, if_neg hne', e1, e2]
      split
      · rfl
      split
      · rfl
      · simp only [Except.map, h1, h2]

/-- Broadcasting changes the number of points but not the set of abscissas. -/
theorem mem_points {x : NdArr K} {ys B : List ℕ} (hl : ys.length = x.shape.length) (hB : Spec.Common [x.shape, ys] B) (hne : B.prod ≠ 0) (t : K) :
    t ∈ x.toList ↔ t ∈ pointXs B x := by
  have hBl := common_len hl hB
  simp only [NdArr.toList, pointXs, List.mem_map, List.mem_range]
  constructor
  · rintro ⟨i, hi, rfl⟩
    have hv := unravel_valid _ _ hi
    have hvB : ValidIdx B (NdArr.unravel x.shape i) := by
      refine ⟨by rw [hv.1, hBl], fun k hk => ?_⟩
      have h1 := hv.2 k (by omega)
      have h2 := hB.fits x.shape (by simp) (x.shape.length - 1 - k)
      rw [rdim_of_lt (by omega), rdim_of_lt (by omega)] at h2
      rw [show x.shape.length - 1 - (x.shape.length - 1 - k) = k by omega, show B.length - 1 - (x.shape.length - 1 - k) = k by omega] at h2
      have h3 : B.getD k 0 ≠ 0 := by
        intro e
        apply hne
        rw [List.prod_eq_zero_iff, ← e, List.getD_eq_getElem _ _ hk]
        exact List.getElem_mem _
      omega
    obtain ⟨j, hj, e⟩ := unravel_surj _ _ hvB
    exact ⟨j, hj, by rw [e, bget_self hv]⟩
  · rintro ⟨i, hi, rfl⟩
    obtain ⟨j, hj, e⟩ := unravel_surj _ _ (common_valid hB (s := x.shape) (by simp) (unravel_valid _ _ hi))
    exact ⟨j, hj, by rw [e]; rfl⟩

end Fit

variable {x y : NdArr K} {sigy : Option (NdArr K)} {lo hi : List (NdArr K)} {lead ys B : List ℕ}

theorem pointXs_ne (hne : B.prod ≠ 0) : pointXs B x ≠ [] := fun e => hne (by simpa [pointXs] using congrArg List.length e)

theorem splfit_none {m : ℕ} (S : Scipy K) (xk x : List K) (y : List (Fin m → K)) (sigy : Option (List (Fin m → K))) (n : ℕ) (nc : Option ℤ)
    (lo hi : List (Fin m → K)) (per : Bool) (extrap : Option (ℕ × ℕ)) :
    splfit S xk x y (some (sigy.getD (y.map fun _ _ => 1))) n nc lo hi per extrap = splfit S xk x y sigy n nc lo hi per extrap := by
  rw [splfit_form, splfit_form]; rfl

theorem plfit_none {m : ℕ} (inv : InvFun K) (S : Scipy K) (H : SolveH K) (xk x : List K) (y : List (Fin m → K)) (sigy : Option (List (Fin m → K)))
    (lo hi : List (Fin m → K)) (per : Bool) (extrap : Option (ℕ × ℕ)) :
    plfit inv S H xk x y (some (sigy.getD (y.map fun _ _ => 1))) lo hi per extrap = plfit inv S H xk x y sigy lo hi per extrap := by
  rw [plfit_form, plfit_form]; rfl

/-- **C80** — arrays: `x` of any shape, `y` with at most one more axis in front (`lead`), conforming in the others to `x` (common shape `B`, at least one point),
`sigy` and the boundary values broadcastable.  Then `splfit` is the fit of the flat list of all the points, with one component for every index
of the leading axis, and the values of the result have the shape `lead`. -/
theorem C80_arrays_splfit (hlead : lead.length ≤ 1) (hy : y.shape = lead ++ ys) (hl : ys.length = x.shape.length)
    (hB : Spec.Common [x.shape, ys] B) (hne : B.prod ≠ 0) (hm : lead.headD 1 ≠ 0) (hsig : ∀ s ∈ sigy, Spec.Common [s.shape, lead ++ B] (lead ++ B))
    (hlo : ∀ bc ∈ lo, Spec.Common [bc.shape, lead] lead) (hhi : ∀ bc ∈ hi, Spec.Common [bc.shape, lead] lead)
    (S : Scipy K) (xk : List K) (n : ℕ) (nc : Option ℤ) (per : Bool) (extrap : Option (ℕ × ℕ)) :
    splfitNd S xk x y sigy n nc lo hi per extrap =
      (splfit S xk (pointXs B x) (pointVals lead B (lead.headD 1) y) (sigy.map (pointVals lead B _)) n nc (lo.map (bcVal lead _)) (hi.map (bcVal lead _))
        per extrap).map fun r => ⟨lead, lead.headD 1, r.1, r.2⟩ := by
  obtain ⟨a, h1, hx, hsh, hys, hc, hs, hlo', hhi', hbc⟩ := splfitArgs_ok hlead hy hl hB hsig hlo hhi
  have hset := setup_same (m := lead.headD 1) (p := 1) (pointXs_ne (x := x) hne) (fun t => (mem_points hl hB hne t).symm) xk
    (lo := lo.map (bcVal lead _)) (hi := hi.map (bcVal lead _)) (lo' := lo.map fun _ => 0) (hi' := hi.map fun _ => 0)
    (by simp) (by simp) per extrap
  unfold splfitNd
  simp only [bind, Except.bind, pure, Except.pure, throw, throwThe, MonadExceptOf.throw]
  cases hset1 : setup xk x.toList (lo.map fun _ => (0 : Fin 1 → K)) (hi.map fun _ => 0) per extrap with
  | error e =>
    rw [hset1] at hset
    cases hset2 : setup xk (pointXs B x) (lo.map (bcVal lead (lead.headD 1))) (hi.map (bcVal lead _)) per extrap with
    | ok s => rw [hset2] at hset; exact nomatch hset
    | error e' =>
      rw [hset2] at hset
      simp only [Except.map, Except.error.injEq] at hset
      rw [splfit_form]
      unfold splPrep
      rw [hset2, hset]; rfl
  | ok s =>
    simp only
    rw [h1]
    simp only [hsh, hx, hys]
    have hxl : (pointXs B x).length = B.prod := by simp [pointXs]
    rw [if_neg (fun h => by obtain ⟨_, v, hv, hv'⟩ := h; exact hbc v hv hm hv'), hxl, hc, hs, hlo', hhi', splfit_none]
    cases splfit S xk (pointXs B x) (pointVals lead B (lead.headD 1) y) (sigy.map (pointVals lead B _)) n nc (lo.map (bcVal lead _)) (hi.map (bcVal lead _))
        per extrap with
    | error e => rfl
    | ok r => simp only [if_neg hm]; rfl

/-- **C80** — the same for `plfit`. -/
theorem C80_arrays_plfit (hlead : lead.length ≤ 1) (hy : y.shape = lead ++ ys) (hl : ys.length = x.shape.length)
    (hB : Spec.Common [x.shape, ys] B) (hne : B.prod ≠ 0) (hsig : ∀ s ∈ sigy, Spec.Common [s.shape, lead ++ B] (lead ++ B))
    (hlo : ∀ bc ∈ lo, Spec.Common [bc.shape, lead] lead) (hhi : ∀ bc ∈ hi, Spec.Common [bc.shape, lead] lead)
    (inv : InvFun K) (S : Scipy K) (H : SolveH K) (xk : List K) (per : Bool) (extrap : Option (ℕ × ℕ)) :
    plfitNd inv S H xk x y sigy lo hi per extrap =
      (plfit inv S H xk (pointXs B x) (pointVals lead B (lead.headD 1) y) (sigy.map (pointVals lead B _)) (lo.map (bcVal lead _)) (hi.map (bcVal lead _))
        per extrap).map fun r => ⟨lead, lead.headD 1, r⟩ := by
  obtain ⟨a, h1, hx, hsh, hys, hc, hs, hlo', hhi', hbc⟩ := splfitArgs_ok hlead hy hl hB hsig hlo hhi
  have hset := setup_same (m := lead.headD 1) (p := 1) (pointXs_ne (x := x) hne) (fun t => (mem_points hl hB hne t).symm) xk
    (lo := lo.map (bcVal lead _)) (hi := hi.map (bcVal lead _)) (lo' := lo.map fun _ => 0) (hi' := hi.map fun _ => 0)
    (by simp) (by simp) per extrap
  unfold plfitNd
  simp only [bind, Except.bind, pure, Except.pure, throw, throwThe, MonadExceptOf.throw]
  cases hset1 : setup xk x.toList (lo.map fun _ => (0 : Fin 1 → K)) (hi.map fun _ => 0) per extrap with
  | error e =>
    rw [hset1] at hset
    cases hset2 : setup xk (pointXs B x) (lo.map (bcVal lead (lead.headD 1))) (hi.map (bcVal lead _)) per extrap with
    | ok s => rw [hset2] at hset; exact nomatch hset
    | error e' =>
      rw [hset2] at hset
      simp only [Except.map, Except.error.injEq] at hset
      rw [plfit_form]
      unfold plPrep
      rw [hset2, hset]; rfl
  | ok s =>
    simp only
    by_cases hlen : 1 < lo.length ∨ 1 < hi.length
    · rw [if_pos hlen]
      cases hset2 : setup xk (pointXs B x) (lo.map (bcVal lead (lead.headD 1))) (hi.map (bcVal lead _)) per extrap with
      | error e => rw [hset1, hset2] at hset; exact nomatch hset
      | ok s' =>
        rw [plfit_form]
        unfold plPrep
        rw [hset2]
        have hlen' : 1 < s'.lo.length ∨ 1 < s'.hi.length := by
          revert hset2
          unfold setup
          simp only [bind, Except.bind, pure, Except.pure, throw, throwThe, MonadExceptOf.throw, ne_eq]
          intro hset2
          repeat' split at hset2
          all_goals first | (cases hset2; done) | skip
          all_goals
            cases hset2
            simp only [List.length_map]
            first | exact hlen | exact hlen.symm
        simp only [Except.bind]
        rw [if_pos hlen']; rfl
    · rw [if_neg hlen]
      rw [h1]
      simp only [hsh, hx, hys]
      have hxl : (pointXs B x).length = B.prod := by simp [pointXs]
      rw [if_neg (fun h => by obtain ⟨hm, v, hv, hv'⟩ := h; exact hbc v hv hm hv'), hxl, hc, hs, hlo', hhi', plfit_none]
      cases plfit inv S H xk (pointXs B x) (pointVals lead B (lead.headD 1) y) (sigy.map (pointVals lead B _)) (lo.map (bcVal lead _)) (hi.map (bcVal lead _))
          per extrap with
      | error e => rfl
      | ok r => rfl

/-! ### more than one leading axis -/

theorem take_common {a b r : List ℕ} {k : ℕ} (h : Spec.Common [a, b] r) (hk : b.length + k ≤ a.length) : r.length = a.length ∧ r.take k = a.take k := by
  have hr : r.length = a.length := by
    obtain ⟨s, hs, e⟩ := h.maxlen
    have h1 := h.len a (by simp)
    simp only [List.mem_cons, List.not_mem_nil, or_false] at hs
    rcases hs with rfl | rfl <;> omega
  refine ⟨hr, List.ext_getElem (by simp [hr]) fun i h1 h2 => ?_⟩
  simp only [List.length_take] at h1 h2
  rw [List.getElem_take, List.getElem_take]
  obtain ⟨s, hs, e⟩ := h.hit (r.length - 1 - i)
  have h3 := h.fits a (by simp) (r.length - 1 - i)
  rw [rdim_of_lt (by omega), rdim_of_lt (by omega)] at h3
  rw [show r.length - 1 - (r.length - 1 - i) = i by omega, show a.length - 1 - (r.length - 1 - i) = i by omega,
    List.getD_eq_getElem _ _ (by omega), List.getD_eq_getElem _ _ (by omega)] at h3
  simp only [List.mem_cons, List.not_mem_nil, or_false] at hs
  rcases hs with rfl | rfl
  · rw [rdim_of_lt (by omega), rdim_of_lt (by omega)] at e
    rw [show r.length - 1 - (r.length - 1 - i) = i by omega, show s.length - 1 - (r.length - 1 - i) = i by omega,
      List.getD_eq_getElem _ _ (by omega), List.getD_eq_getElem _ _ (by omega)] at e
    exact e.symm
  · rw [rdim_of_lt (s := r) (by omega), rdim_of_ge (s := s) (by omega)] at e
    rw [show r.length - 1 - (r.length - 1 - i) = i by omega, List.getD_eq_getElem _ _ (by omega)] at e
    rcases h3 with h3 | h3 <;> omega

theorem splfitArgs_shape {a : NdArgs K} (hdim : x.shape.length + 2 ≤ y.shape.length) (h : splfitArgs x y sigy lo hi = .ok a) :
    ∃ m1 m2 l, a.y.shape = m1 :: m2 :: l ∧ l ≠ [] ∧ m1 = y.shape.headD 0 := by
  unfold splfitArgs at h
  simp only [bind, Except.bind, pure, Except.pure] at h
  cases h1 : y.zip (· + ·) (NdArr.zeros x.shape : NdArr K) with
  | error e => rw [h1] at h; cases h
  | ok y1 =>
    rw [h1] at h
    simp only at h
    obtain ⟨c1, -⟩ := NdArr.zip_ok h1
    have hk : (if (y.shape.length : ℤ) - x.shape.length < 0 then (y.shape.length : ℤ) - x.shape.length + (y1.shape.length : ℕ)
        else (y.shape.length : ℤ) - x.shape.length).toNat = y.shape.length - x.shape.length := by
      rw [if_neg (by omega)]; omega
    rw [hk, if_pos (by omega)] at h
    obtain ⟨hl1, ht⟩ := take_common (k := y.shape.length - x.shape.length) c1 (by simp only [NdArr.zeros]; omega)
    rw [ht] at h
    split at h
    · cases h
    rename_i x1 _
    have key : ∀ {y2 : NdArr K} {k : ℕ}, y1.reshape (y.shape.take (y.shape.length - x.shape.length) ++ [k]) = .ok y2 →
        ∃ m1 m2 l, y2.shape = m1 :: m2 :: l ∧ l ≠ [] ∧ m1 = y.shape.headD 0 := by
      intro y2 k hy2
      unfold NdArr.reshape at hy2
      split at hy2
      · cases hy2
        simp only [NdArr.ofList]
        obtain ⟨a1, a2, l, hyl⟩ : ∃ a1 a2 l, y.shape = a1 :: a2 :: l := by
          match hs : y.shape with
          | [] => rw [hs] at hdim; simp at hdim
          | [_] => rw [hs] at hdim; simp at hdim
          | a1 :: a2 :: l => exact ⟨a1, a2, l, rfl⟩
        obtain ⟨k, hk'⟩ : ∃ k, y.shape.length - x.shape.length = k + 2 := ⟨y.shape.length - x.shape.length - 2, by omega⟩
        rw [hk', hyl]
        exact ⟨a1, a2, _, rfl, by simp, rfl⟩
      · cases hy2
    cases hy2 : y1.reshape (y.shape.take (y.shape.length - x.shape.length) ++ [x1.toList.length]) with
    | error e =>
      rw [hy2] at h
      simp only at h
      cases sigy with
      | none => cases h
      | some s =>
        simp only at h
        split at h <;> cases h
    | ok y2 =>
      rw [hy2] at h
      obtain ⟨m1, m2, l, hh⟩ := key hy2
      simp only at h
      suffices a.y = y2 from ⟨m1, m2, l, this ▸ hh⟩
      cases sigy with
      | none =>
        simp only at h
        split at h
        · cases h
        split at h
        · cases h
        split at h
        · cases h
        cases h; rfl
      | some s =>
        simp only at h
        split at h
        · cases h
        split at h
        · cases h
        split at h
        · cases h
        split at h
        · cases h
        cases h; rfl

/-- **C80** (the documentation promises leading dimensions of `y`, "multiple functions (e.g.- a multidimensional curve)", without limit) — if `y` has at least
two more axes than `x`, then `splfit` raises an exception whatever the other arguments are, and so does `plfit` unless the first axis has length 0. -/
theorem C80_leading_axes_fails (hdim : x.shape.length + 2 ≤ y.shape.length) (inv : InvFun K) (S : Scipy K) (H : SolveH K) (xk : List K) (n : ℕ)
    (nc : Option ℤ) (per : Bool) (extrap : Option (ℕ × ℕ)) :
    (∃ e, splfitNd S xk x y sigy n nc lo hi per extrap = .error e) ∧
    (y.shape.headD 0 ≠ 0 → ∃ e, plfitNd inv S H xk x y sigy lo hi per extrap = .error e) := by
  constructor
  · unfold splfitNd
    simp only [bind, Except.bind, pure, Except.pure, throw, throwThe, MonadExceptOf.throw]
    cases setup xk x.toList (lo.map fun _ => (0 : Fin 1 → K)) (hi.map fun _ => 0) per extrap with
    | error e => exact ⟨e, rfl⟩
    | ok s =>
      simp only
      cases h1 : splfitArgs x y sigy lo hi with
      | error e => exact ⟨e, rfl⟩
      | ok a =>
        obtain ⟨m1, m2, l, hs, hl, -⟩ := splfitArgs_shape hdim h1
        obtain ⟨b, l, rfl⟩ := List.exists_cons_of_ne_nil hl
        simp only [hs]
        split
        · exact ⟨_, rfl⟩
        · exact ⟨_, rfl⟩
  · intro hne
    unfold plfitNd
    simp only [bind, Except.bind, pure, Except.pure, throw, throwThe, MonadExceptOf.throw]
    cases setup xk x.toList (lo.map fun _ => (0 : Fin 1 → K)) (hi.map fun _ => 0) per extrap with
    | error e => exact ⟨e, rfl⟩
    | ok s =>
      simp only
      split
      · exact ⟨_, rfl⟩
      cases h1 : splfitArgs x y sigy lo hi with
      | error e => exact ⟨e, rfl⟩
      | ok a =>
        obtain ⟨m1, m2, l, hs, hl, hm⟩ := splfitArgs_shape hdim h1
        obtain ⟨b, l, rfl⟩ := List.exists_cons_of_ne_nil hl
        simp only [hs]
        rw [if_pos (by rw [hm]; exact hne)]
        exact ⟨_, rfl⟩

/-! ### examples -/

/-- Two curves at once: the step and twice the step. -/
example : ∃ r, splfit (exactScipy ℚ) [0, 1, 2] [1/4, 3/4, 5/4, 7/4]
    [fun _ : Fin 2 => 0, fun _ => 0, fun i => 1 + i.1, fun i => 1 + i.1] none 1 = .ok r := by
  refine (C80_splfit (by decide) _ _ _ _ _ _ _ _ _ _ _).1.2 fun i => ?_
  have h : ∀ c : ℚ, c = 1 ∨ c = 2 → ∃ r, splfit (exactScipy ℚ) [0, 1, 2] [1/4, 3/4, 5/4, 7/4]
      [fun _ : Fin 1 => 0, fun _ => 0, fun _ => c, fun _ => c] none 1 = .ok r := by
    rintro c (rfl | rfl)
    · have h2 := splfit_step
      cases hc : splfit (exactScipy ℚ) [0, 1, 2] [1/4, 3/4, 5/4, 7/4] [fun _ : Fin 1 => 0, fun _ => 0, fun _ => 1, fun _ => 1] none 1 with
      | error e => rw [hc] at h2; cases h2
      | ok o => exact ⟨o, rfl⟩
    · have h2 : ((splfit (exactScipy ℚ) [0, 1, 2] [1/4, 3/4, 5/4, 7/4]
        [fun _ : Fin 1 => 0, fun _ => 0, fun _ => 2, fun _ => 2] none 1).map fun _ => ()) = .ok () := by decide +kernel
      cases hc : splfit (exactScipy ℚ) [0, 1, 2] [1/4, 3/4, 5/4, 7/4] [fun _ : Fin 1 => 0, fun _ => 0, fun _ => 2, fun _ => 2] none 1 with
      | error e => rw [hc] at h2; cases h2
      | ok o => exact ⟨o, rfl⟩
  exact h (1 + i.1) (by have := i.2; interval_cases i.1 <;> norm_num)

/-- Two curves given by an array of shape `(2, 5)`, with scalar boundary value. -/
example : ((plfitNd (adjInv ℚ) (exactScipy ℚ) (exactH ℚ) [0, 2, 4] (NdArr.ofList [5] [0, 1, 2, 3, 4])
      (NdArr.ofList [2, 5] [0, 1, 1, 1, 2, 0, 2, 2, 2, 4])).bind fun o =>
      [(0 : ℚ), 2, 4].mapM fun t => (o.out.at t).map fun v => (o.lead, List.ofFn v)) =
    .ok [([2], [1/5, 2/5]), ([2], [1, 2]), ([2], [9/5, 18/5])] := by decide +kernel

/-- The same points as a 2 × 2 array of abscissas. -/
example : ((splfitNd (exactScipy ℚ) [0, 1, 2] (NdArr.ofList [2, 2] [1/4, 3/4, 5/4, 7/4]) (NdArr.ofList [2, 2] [0, 0, 1, 1])
      none 1).bind fun o => (o.out.at 1).map fun v => (o.lead, List.ofFn v)) = .ok ([], [1/2]) := by decide +kernel

/-- Data as documented (four curves, in a 2 × 2 array, conforming to `x`): no fit. -/
example : (plfitNd (adjInv ℚ) (exactScipy ℚ) (exactH ℚ) [0, 2, 4] (NdArr.ofList [5] [0, 1, 2, 3, 4])
      (NdArr.zeros [2, 2, 5])).map (fun _ => ()) = .error .valueError := by decide +kernel

end Npplus
