import Verif.Props.PlfitPer

/-!
# C36 for `plfit` and `splfit`, existence of the fit (C31), examples
-/

set_option linter.unusedSectionVars false

namespace Npplus
open Spec Finset Fit Spl

variable {K : Type} [Field K] [LinearOrder K] [IsStrictOrderedRing K] [FloorRing K]
  {inv : InvFun K} {S : Scipy K} {H : SolveH K} {x xk : List K} {m : ℕ} {y : List (Fin m → K)}
  {sigy : Option (List (Fin m → K))} {lo hi : List (Fin m → K)} {per : Bool} {extrap : Option (ℕ × ℕ)}
  {n : ℕ} {nc : Option ℤ} {e : PyErr}

theorem plfit_setup_err (h : setup xk x lo hi per extrap = .error e) :
    plfit inv S H xk x y sigy lo hi per extrap = .error e ∧ splfit S xk x y sigy n nc lo hi per extrap = .error e := by
  unfold plfit splfit
  simp only [bind, Except.bind, h, and_self]

/-- **C36** — `per=True` together with `lo`, `hi` or `extrap` is a TypeError. -/
theorem C36_periodic_args (h : lo ≠ [] ∨ hi ≠ [] ∨ extrap ≠ none) :
    plfit inv S H xk x y sigy lo hi true extrap = .error .typeError ∧
    splfit S xk x y sigy n nc lo hi true extrap = .error .typeError := by
  apply plfit_setup_err
  unfold setup
  simp only [bind, Except.bind, pure, Except.pure, throw, throwThe, MonadExceptOf.throw]
  rw [if_pos (by simpa using h)]

/-- **C36** — fewer than two knots is a TypeError. -/
theorem C36_too_few_knots (h : xk.length < 2) :
    plfit inv S H xk x y sigy lo hi per extrap = .error .typeError ∧
    splfit S xk x y sigy n nc lo hi per extrap = .error .typeError := by
  apply plfit_setup_err
  unfold setup
  simp only [bind, Except.bind, pure, Except.pure, throw, throwThe, MonadExceptOf.throw]
  split
  · rfl
  · try simp only [if_pos h]

/-- **C36** — with increasing knots, a data point left of the first knot together with `lo`, or one right of the last
knot together with `hi`, is a ValueError. -/
theorem C36_beyond (hs : xk.Pairwise (· < ·)) (h2 : 2 ≤ xk.length)
    (h : (lo ≠ [] ∧ ∃ t ∈ x, t < xk.getD 0 0) ∨ (hi ≠ [] ∧ ∃ t ∈ x, xk.getD (xk.length - 1) 0 < t)) :
    plfit inv S H xk x y sigy lo hi false extrap = .error .valueError ∧
    splfit S xk x y sigy n nc lo hi false extrap = .error .valueError := by
  apply plfit_setup_err
  have hx : x ≠ [] := by
    rcases h with ⟨-, t, ht, -⟩ | ⟨-, t, ht, -⟩ <;> exact List.ne_nil_of_mem ht
  unfold setup
  simp only [bind, Except.bind, pure, Except.pure, throw, throwThe, MonadExceptOf.throw]
  rw [if_neg (by simp)]
  try simp only
  rw [if_neg (by omega)]
  try simp only
  rw [if_neg (not_lt.mpr (first_le hs (last_mem h2)))]
  try simp only
  rw [if_neg (by simp), if_neg hx]
  try simp only
  rcases h with ⟨hl, t, ht, hlt⟩ | ⟨hl, t, ht, hlt⟩
  · rw [if_pos ⟨lt_of_le_of_lt ((amin_spec hx).2 t ht) hlt, hl⟩]
  · split
    · rfl
    · rw [if_pos ⟨lt_of_lt_of_le hlt ((amax_spec hx).2 t ht), hl⟩]

/-- The only ways in which the set-up fails, for increasing knots. -/
theorem setup_succeeds (hs : xk.Pairwise (· < ·)) (h2 : 2 ≤ xk.length) (hx : x ≠ [])
    (hl : lo ≠ [] → ∀ t ∈ x, xk.getD 0 0 ≤ t) (hh : hi ≠ [] → ∀ t ∈ x, t ≤ xk.getD (xk.length - 1) 0) :
    ∃ s, setup xk x lo hi false extrap = .ok s := by
  unfold setup
  simp only [bind, Except.bind, pure, Except.pure, throw, throwThe, MonadExceptOf.throw]
  rw [if_neg (by simp)]
  try simp only
  rw [if_neg (by omega)]
  try simp only
  rw [if_neg (not_lt.mpr (first_le hs (last_mem h2)))]
  try simp only
  rw [if_neg (by simp), if_neg hx]
  try simp only
  rw [if_neg (fun hc => absurd hc.1 (not_lt.mpr (hl hc.2 _ (amin_spec hx).1)))]
  try simp only
  rw [if_neg (fun hc => absurd hc.1 (not_lt.mpr (hh hc.2 _ (amax_spec hx).1)))]
  exact ⟨_, rfl⟩

/-- **C36** — decreasing knots are the increasing ones with `lo` and `hi`, and the two items of `extrap`, exchanged. -/
theorem C36_decreasing (hs : xk.Pairwise (· > ·)) :
    plfit inv S H xk x y sigy lo hi per extrap =
      plfit inv S H xk.reverse x y sigy hi lo per (extrap.map fun e => (e.2, e.1)) ∧
    splfit S xk x y sigy n nc lo hi per extrap =
      splfit S xk.reverse x y sigy n nc hi lo per (extrap.map fun e => (e.2, e.1)) := by
  have key : setup xk x lo hi per extrap = setup xk.reverse x hi lo per (extrap.map fun e => (e.2, e.1)) := by
    have hr : xk.reverse.Pairwise (· < ·) := List.pairwise_reverse.mpr hs
    unfold setup
    simp only [bind, Except.bind, pure, Except.pure, throw, throwThe, MonadExceptOf.throw, List.length_reverse]
    have hcond : (per = true ∧ (lo ≠ [] ∨ hi ≠ [] ∨ extrap ≠ none)) ↔
        (per = true ∧ (hi ≠ [] ∨ lo ≠ [] ∨ (extrap.map fun e => (e.2, e.1)) ≠ none)) := by
      have : (extrap.map fun e => (e.2, e.1)) ≠ none ↔ extrap ≠ none := by cases extrap <;> simp
      rw [this]; tauto
    by_cases hc : per = true ∧ (lo ≠ [] ∨ hi ≠ [] ∨ extrap ≠ none)
    · rw [if_pos hc, if_pos (hcond.mp hc)]
    rw [if_neg hc, if_neg (fun h => hc (hcond.mpr h))]
    by_cases h2 : xk.length < 2
    · simp only [if_pos h2]
    simp only [if_neg h2]
    have hlt : xk.getD (xk.length - 1) 0 < xk.getD 0 0 := by
      rw [List.getD_eq_getElem _ _ (by omega), List.getD_eq_getElem _ _ (by omega)]
      exact List.pairwise_iff_getElem.mp hs 0 (xk.length - 1) (by omega) (by omega) (by omega)
    have hnl : ¬ xk.reverse.getD (xk.length - 1) 0 < xk.reverse.getD 0 0 := by
      have := first_le hr (k := xk.reverse.getD (xk.reverse.length - 1) 0) (last_mem (by rw [List.length_reverse]; omega))
      rw [List.length_reverse] at this
      exact not_lt.mpr this
    rw [if_pos hlt, if_neg hnl]
    try simp only [List.length_reverse]
  unfold plfit splfit
  simp only [key, and_self]

/-- **C36** — every data point is in the interval of the knots to which the fit assigns it. -/
theorem C36_interval {xk' : List K} (hs : xk.Pairwise (· < ·)) (hk : FitKnots xk x xk') (h2 : 2 ≤ xk.length) {t : K}
    (ht : t ∈ x) :
    index xk' t + 1 < xk'.length ∧ xk'.getD (index xk' t) 0 ≤ t ∧ t ≤ xk'.getD (index xk' t + 1) 0 := by
  have hne : xk ≠ [] := by intro h0; rw [h0] at h2; simp at h2
  have hx := List.ne_nil_of_mem ht
  obtain ⟨a, b⟩ := fitKnots_range hk hne hx ht
  have h2' : 2 ≤ xk'.length := by
    by_contra hc
    obtain ⟨k0, k1, h01, hk0, hk1⟩ : ∃ k0 k1, k0 ≠ k1 ∧ k0 ∈ xk' ∧ k1 ∈ xk' :=
      ⟨xk[0], xk[1], (List.pairwise_iff_getElem.mp hs 0 1 _ _ (by omega)).ne, (hk.mem _).mpr (.inl (List.getElem_mem _)),
        (hk.mem _).mpr (.inl (List.getElem_mem _))⟩
    match xk', hc with
    | [], _ => simp at hk0
    | [a], _ => simp at hk0 hk1; exact h01 (hk0.trans hk1.symm)
    | _ :: _ :: _, hc => simp at hc
  obtain ⟨c, d, e, -⟩ := index_spec hk.inc h2' a b
  exact ⟨c, d, e⟩

/-! ### existence -/

/-- `_plfitter` succeeds when the matrix is positive definite in the free directions. -/
theorem plfitter_succeeds (hH : SolveHOK H) {nun : ℕ} (h2 : 2 ≤ nun) {adiag asup b : ℕ → K} {l h : Option K}
    (h3 : l.isSome → h.isSome → 3 ≤ nun)
    (hpd : ∀ d : ℕ → K, (l.isSome → d 0 = 0) → (h.isSome → d (nun - 1) = 0) → (∃ k < nun, d k ≠ 0) →
      0 < ∑ k ∈ range nun, adiag k * (d k * d k) + ∑ k ∈ range (nun - 1), asup k * (d (k + 1) * d k + d k * d (k + 1))) :
    ∃ v, plfitter S H nun adiag asup b l h false = .ok v := by
  unfold plfitter
  rw [if_neg (by simp)]
  simp only [bind, Except.bind, pure, Except.pure, throw, throwThe, MonadExceptOf.throw]
  obtain ⟨n, rfl⟩ : ∃ n, nun = n + 2 := ⟨nun - 2, by omega⟩
  cases l with
  | none =>
    cases h with
    | none =>
      simp only [Option.isSome_none, Bool.false_eq_true, if_false, false_and, Nat.zero_add, Nat.sub_zero, and_false]
      obtain ⟨z, hz⟩ := hH.complete 1 (n + 2) (fun r j => if r = 0 then adiag j else asup j) b (fun d hd => by
        rw [tri_band]; exact hpd d (by simp) (by simp) hd)
      rw [hz]; exact ⟨_, rfl⟩
    | some hv =>
      simp only [Option.isSome_none, Option.isSome_some, Bool.false_eq_true, if_false, if_true, false_and, Nat.zero_add,
        Nat.sub_zero, true_and, and_false, and_true, Option.getD_some]
      rw [if_neg (by omega)]
      try simp only
      obtain ⟨z, hz⟩ := hH.complete 1 (n + 2 - 1) (fun r j => if r = 0 then adiag j else asup j)
        (Function.update b (n + 2 - 1 - 1) (b (n + 2 - 1 - 1) - hv * asup (n + 2 - 2))) (fun d hd => by
        rw [tri_band]
        obtain ⟨k, hk, hdk⟩ := hd
        have := hpd (fun k => if k = n + 1 then 0 else d k) (by simp) (by simp) ⟨k, by omega, by simp only [if_neg (show ¬ k = n + 1 by omega)]; exact hdk⟩
        simp only [show n + 2 - 1 = n + 1 by omega, show n + 1 - 1 = n by omega] at this ⊢
        rw [sum_range_succ _ (n + 1), sum_range_succ (fun k => asup k * _) n] at this
        simp only [if_true, zero_mul, mul_zero, add_zero, show ¬ n = n + 1 by omega, if_false] at this
        refine this.trans_eq (congrArg₂ HAdd.hAdd (sum_congr rfl fun k hk => ?_) (sum_congr rfl fun k hk => ?_))
        · have := mem_range.mp hk
          rw [if_neg (by omega)]
        · have := mem_range.mp hk
          rw [if_neg (by omega), if_neg (by omega)])
      rw [hz]; exact ⟨_, rfl⟩
  | some lv =>
    cases h with
    | none =>
      simp only [Option.isSome_none, Option.isSome_some, Bool.false_eq_true, if_false, if_true, false_and,
        true_and, and_false, and_true, Option.getD_some]
      rw [if_neg (by omega)]
      try simp only
      obtain ⟨z, hz⟩ := hH.complete 1 (n + 2 - 1) (fun r j => if r = 0 then adiag (1 + j) else asup (1 + j))
        (Function.update (fun k => b (1 + k)) 0 (b (1 + 0) - lv * asup 0)) (fun d hd => by
        rw [tri_band (a0 := fun j => adiag (1 + j)) (a1 := fun j => asup (1 + j))]
        obtain ⟨k, hk, hdk⟩ := hd
        have := hpd (fun k => if k = 0 then 0 else d (k - 1)) (by simp) (by simp) ⟨k + 1, by omega, by simpa using hdk⟩
        simp only [show n + 2 - 1 = n + 1 by omega, show n + 1 - 1 = n by omega] at this ⊢
        rw [sum_range_succ' _ (n + 1), sum_range_succ' (fun k => asup k * _) n] at this
        simp only [if_true, zero_mul, mul_zero, add_zero, Nat.succ_ne_zero, if_false, add_tsub_cancel_right] at this
        simp only [Nat.add_comm 1]
        exact this)
      rw [hz]; exact ⟨_, rfl⟩
    | some hv =>
      have h3 := h3 rfl rfl
      simp only [Option.isSome_some, if_true, true_and, and_true, Option.getD_some]
      rw [if_neg (by omega)]
      try simp only
      obtain ⟨n, rfl⟩ : ∃ n', n = n' + 1 := ⟨n - 1, by omega⟩
      rw [if_neg (by omega)]
      try simp only
      obtain ⟨z, hz⟩ := hH.complete 1 (n + 1 + 2 - 1 - 1) (fun r j => if r = 0 then adiag (1 + j) else asup (1 + j))
        (Function.update (Function.update (fun k => b (1 + k)) 0 (b (1 + 0) - lv * asup 0)) (n + 1 + 2 - 1 - 1 - 1)
          (Function.update (fun k => b (1 + k)) 0 (b (1 + 0) - lv * asup 0) (n + 1 + 2 - 1 - 1 - 1) - hv * asup (n + 1 + 2 - 2)))
        (fun d hd => by
        rw [tri_band (a0 := fun j => adiag (1 + j)) (a1 := fun j => asup (1 + j))]
        obtain ⟨k, hk, hdk⟩ := hd
        have := hpd (fun k => if k = 0 then 0 else if k = n + 2 then 0 else d (k - 1)) (by simp) (by simp)
          ⟨k + 1, by omega, by
            simp only [Nat.succ_ne_zero, if_false, add_tsub_cancel_right, if_neg (show ¬ k + 1 = n + 2 by omega)]; exact hdk⟩
        simp only [show n + 1 + 2 - 1 = n + 2 by omega, show n + 2 - 1 = n + 1 by omega, show n + 1 - 1 = n by omega] at this ⊢
        have e0 : ∀ f : ℕ → K, ∑ k ∈ range (n + 1 + 2), f k = ∑ k ∈ range (n + 1), f (k + 1) + f 0 + f (n + 2) := by
          intro f; rw [sum_range_succ, sum_range_succ']
        have e0' : ∀ f : ℕ → K, ∑ k ∈ range (n + 2), f k = ∑ k ∈ range n, f (k + 1) + f 0 + f (n + 1) := by
          intro f; rw [sum_range_succ, sum_range_succ']
        rw [e0, e0'] at this
        simp only [if_true, zero_mul, mul_zero, add_zero, Nat.succ_ne_zero, if_false, add_tsub_cancel_right,
          show n + 1 + 1 = n + 2 from rfl] at this
        refine this.trans_eq (congrArg₂ HAdd.hAdd (sum_congr rfl fun k hk => ?_) (sum_congr rfl fun k hk => ?_))
        · have := mem_range.mp hk
          rw [if_neg (by omega), add_comm 1 k]
        · have := mem_range.mp hk
          rw [if_neg (by omega), if_neg (by omega), add_comm 1 k])
      rw [hz]; exact ⟨_, rfl⟩

/-- The knots of a fit are determined. -/
theorem Spec.FitKnots.unique {a b : List K} (ha : FitKnots xk x a) (hb : FitKnots xk x b) : a = b :=
  List.Perm.eq_of_pairwise (le := (· < ·)) (fun p q _ _ h1 h2 => absurd h1 (not_lt.mpr h2.le)) ha.inc hb.inc
    ((List.perm_ext_iff_of_nodup (ha.inc.imp fun h => ne_of_lt h) (hb.inc.imp fun h => ne_of_lt h)).mpr fun t => by
      rw [ha.mem, hb.mem])

/-- The polyline with given knot values. -/
def polyOf (xk : List K) (d : ℕ → K) (t : K) : K :=
  lineThrough xk ((List.range xk.length).map d) (index xk t) t

theorem polyOf_line (hs : xk.Pairwise (· < ·)) (h2 : 2 ≤ xk.length) (d : ℕ → K) {j : ℕ} (hj : j + 1 < xk.length) {t : K}
    (h1 : xk.getD j 0 ≤ t) (h3 : t ≤ xk.getD (j + 1) 0) :
    polyOf xk d t = lineThrough xk ((List.range xk.length).map d) j t := by
  have hin : ∀ i < xk.length, xk.getD i 0 ∈ xk := fun i hi => by
    rw [List.getD_eq_getElem _ _ hi]; exact List.getElem_mem _
  obtain ⟨a, b, c, e⟩ := index_spec hs h2 ((first_le hs (hin j (by omega))).trans h1) (h3.trans (le_last hs (hin _ hj)))
  unfold polyOf
  have hmono : ∀ i i', i < i' → i' < xk.length → xk.getD i 0 < xk.getD i' 0 := by
    intro i i' h h'
    rw [List.getD_eq_getElem _ _ (by omega), List.getD_eq_getElem _ _ h']
    exact List.pairwise_iff_getElem.mp hs i i' (by omega) h' h
  rcases Nat.lt_trichotomy (index xk t) j with h | h | h
  · -- `t` is knot `j`, the right end of interval `j-1`
    have h4 : xk.getD (index xk t + 1) 0 ≤ xk.getD j 0 := by
      rcases Nat.eq_or_lt_of_le (show index xk t + 1 ≤ j by omega) with h5 | h5
      · rw [h5]
      · exact (hmono _ _ h5 (by omega)).le
    have h6 : t = xk.getD j 0 := le_antisymm (c.trans h4) h1
    have h7 : j = index xk t + 1 := by
      by_contra hc
      exact absurd (h1.trans c) (not_le.mpr (hmono _ _ (by omega) (by omega)))
    have hw := width_ne hs a
    unfold width at hw
    generalize index xk t = i at *
    subst h7
    rw [h6, lineThrough, lineThrough, div_self hw, one_smul, sub_self, zero_div, zero_smul, add_zero, add_sub_cancel]
  · rw [h]
  · exfalso
    have h4 : xk.getD (j + 1) 0 ≤ xk.getD (index xk t) 0 := by
      rcases Nat.eq_or_lt_of_le (show j + 1 ≤ index xk t by omega) with h5 | h5
      · rw [h5]
      · exact (hmono _ _ h5 (by omega)).le
    have h6 : xk.getD (index xk t) 0 = t := le_antisymm b (h3.trans h4)
    exact absurd (e h6) (by omega)

theorem polyOf_poly (hs : xk.Pairwise (· < ·)) (h2 : 2 ≤ xk.length) (d : ℕ → K) : IsPolyline xk (polyOf xk d) :=
  lineThrough_isPolyline fun _ hj _ h1 h3 => polyOf_line hs h2 d hj h1 h3

theorem polyOf_knot (hs : xk.Pairwise (· < ·)) (h2 : 2 ≤ xk.length) (d : ℕ → K) {k : ℕ} (hk : k < xk.length) :
    polyOf xk d (xk.getD k 0) = d k := by
  have hd : ∀ k < xk.length, ((List.range xk.length).map d).getD k 0 = d k := by
    intro k hk; rw [List.getD_eq_getElem _ _ (by simpa using hk)]; simp
  rcases Nat.lt_or_ge (k + 1) xk.length with hk1 | hk1
  · rw [polyOf_line hs h2 d hk1 le_rfl (sub_pos.mp (width_pos hs hk1)).le, lineThrough, sub_self, zero_div, zero_smul,
      add_zero, hd k hk]
  · obtain ⟨j, rfl⟩ : ∃ j, k = j + 1 := ⟨k - 1, by omega⟩
    have hw := width_pos hs (show j + 1 < xk.length by omega)
    unfold width at hw
    rw [polyOf_line hs h2 d hk (sub_pos.mp hw).le le_rfl, lineThrough, div_self hw.ne', one_smul, add_sub_cancel, hd _ hk]

/-- **C31**, existence — `plfit` returns whenever the data determine the polyline: the only polyline on the knots that
vanishes at all the data (and at the ends where `lo` or `hi` is given) is zero at all knots.  With both `lo` and `hi`
there must be an interior knot. -/
theorem C31_succeeds (hinv : InvOK inv) (hS : ScipyOK S) (hH : SolveHOK H) (hs : xk.Pairwise (· < ·)) (h2 : 2 ≤ xk.length)
    (hx : x ≠ []) (hy : y.length = x.length) (hsg : (sigy.getD (y.map fun _ _ => 1)).length = y.length)
    (hsig : ∀ v ∈ sigy.getD (y.map fun _ _ => 1), ∀ i, v i ≠ 0) (hl1 : lo.length ≤ 1) (hh1 : hi.length ≤ 1)
    (hl : lo ≠ [] → ∀ t ∈ x, xk.getD 0 0 ≤ t) (hh : hi ≠ [] → ∀ t ∈ x, t ≤ xk.getD (xk.length - 1) 0)
    {xk' : List K} (hk : FitKnots xk x xk') (h3 : lo ≠ [] → hi ≠ [] → 3 ≤ xk.length)
    (hdet : ∀ g : K → K, IsPolyline xk' g → (lo ≠ [] → g (xk.getD 0 0) = 0) → (hi ≠ [] → g (xk.getD (xk.length - 1) 0) = 0) →
      (∀ t ∈ x, g t = 0) → ∀ k ∈ xk', g k = 0) :
    ∃ out, plfit inv S H xk x y sigy lo hi false extrap = .ok out := by
  obtain ⟨s, hset⟩ := setup_succeeds (extrap := extrap) hs h2 hx hl hh
  obtain ⟨-, e1, e2, e3, -, hnp⟩ := setup_ok hset hs
  obtain ⟨-, esx, hfk, h2', hlo0, hhi0⟩ := hnp rfl
  obtain rfl := hk.unique hfk
  have hne : xk ≠ [] := by intro h0; rw [h0] at h2; simp at h2
  have hmem : ∀ t < x.length, x.getD t 0 ∈ x := by
    intro t ht; rw [List.getD_eq_getElem _ _ ht]; exact List.getElem_mem _
  have hr : ∀ t < x.length, s.xk.getD 0 0 ≤ x.getD t 0 ∧ x.getD t 0 ≤ s.xk.getD (s.xk.length - 1) 0 :=
    fun t ht => fitKnots_range hfk hne hx (hmem t ht)
  have hlen3 : lo ≠ [] → hi ≠ [] → 3 ≤ s.xk.length := by
    intro a b
    have h3 := h3 a b
    have hsub : xk.length ≤ s.xk.length := by
      refine List.Subperm.length_le (List.subperm_of_subset (hs.imp fun h => ne_of_lt h) fun t ht => (hfk.mem t).mpr (.inl ht))
    omega
  have hcomp : ∀ i, ∃ v, plComp S H s.xk.length x.length (fun t => index s.xk (x.getD t 0))
      (fun t => (x.getD t 0 - s.xk.getD (index s.xk (x.getD t 0)) 0) * (1 / width s.xk (index s.xk (x.getD t 0))))
      (fun t => y.getD t 0 i)
      (fun t => 1 / ((sigy.getD (y.map fun _ _ => 1)).getD t 0 i * (sigy.getD (y.map fun _ _ => 1)).getD t 0 i))
      (lo.head?.map (· i)) (hi.head?.map (· i)) false = .ok v := by
    intro i
    refine plfitter_succeeds hH h2' (fun a b => hlen3 (by rintro rfl; simp at a) (by rintro rfl; simp at b)) ?_
    intro d hd0 hdl hdn
    have hf := tri_form (N := x.length) (nun := s.xk.length) (ix := fun t => index s.xk (x.getD t 0))
      (fun t ht => (index_spec hfk.inc h2' (hr t ht).1 (hr t ht).2).1)
      (fun t => 1 / ((sigy.getD (y.map fun _ _ => 1)).getD t 0 i * (sigy.getD (y.map fun _ _ => 1)).getD t 0 i))
      (fun t => (x.getD t 0 - s.xk.getD (index s.xk (x.getD t 0)) 0) * (1 / width s.xk (index s.xk (x.getD t 0))))
      (fun t => 1 - (x.getD t 0 - s.xk.getD (index s.xk (x.getD t 0)) 0) * (1 / width s.xk (index s.xk (x.getD t 0)))) d d
    rw [hf]
    -- the values of the polyline at the data
    have hval : ∀ t < x.length, (1 - (x.getD t 0 - s.xk.getD (index s.xk (x.getD t 0)) 0) * (1 / width s.xk (index s.xk (x.getD t 0)))) *
        d (index s.xk (x.getD t 0)) + (x.getD t 0 - s.xk.getD (index s.xk (x.getD t 0)) 0) * (1 / width s.xk (index s.xk (x.getD t 0))) *
        d (index s.xk (x.getD t 0) + 1) = polyOf s.xk d (x.getD t 0) := by
      intro t ht
      obtain ⟨a, b, c, -⟩ := index_spec hfk.inc h2' (hr t ht).1 (hr t ht).2
      have := polyline_at (polyOf_poly hfk.inc h2' d) hfk.inc a b c
      rw [polyOf_knot hfk.inc h2' d (by omega), polyOf_knot hfk.inc h2' d a] at this
      exact this.symm
    have hwpos : ∀ t < x.length, 0 < 1 / ((sigy.getD (y.map fun _ _ => 1)).getD t 0 i * (sigy.getD (y.map fun _ _ => 1)).getD t 0 i) := by
      intro t ht
      have : (sigy.getD (y.map fun _ _ => 1)).getD t 0 i ≠ 0 := by
        refine hsig _ ?_ i
        rw [List.getD_eq_getElem _ _ (by omega)]; exact List.getElem_mem _
      exact one_div_pos.mpr (mul_self_pos.mpr this)
    by_contra hc
    have hz : ∀ t < x.length, polyOf s.xk d (x.getD t 0) = 0 := by
      intro t ht
      have hnn : ∀ t ∈ range x.length, 0 ≤ 1 / ((sigy.getD (y.map fun _ _ => 1)).getD t 0 i * (sigy.getD (y.map fun _ _ => 1)).getD t 0 i) *
          polyOf s.xk d (x.getD t 0) * polyOf s.xk d (x.getD t 0) := by
        intro t ht
        rw [mul_assoc]
        exact mul_nonneg (hwpos t (mem_range.mp ht)).le (mul_self_nonneg _)
      have hle : ∑ t ∈ range x.length, 1 / ((sigy.getD (y.map fun _ _ => 1)).getD t 0 i * (sigy.getD (y.map fun _ _ => 1)).getD t 0 i) *
          polyOf s.xk d (x.getD t 0) * polyOf s.xk d (x.getD t 0) ≤ 0 := by
        refine le_trans (le_of_eq (sum_congr rfl fun t ht => ?_)) (not_lt.mp hc)
        rw [← hval t (mem_range.mp ht)]
      have := (sum_eq_zero_iff_of_nonneg hnn).mp (le_antisymm hle (sum_nonneg hnn)) t (mem_range.mpr ht)
      rw [mul_assoc] at this
      exact mul_self_eq_zero.mp ((mul_eq_zero.mp this).resolve_left (hwpos t ht).ne')
    obtain ⟨k, hk, hdk⟩ := hdn
    apply hdk
    rw [← polyOf_knot hfk.inc h2' d hk]
    refine hdet _ (polyOf_poly hfk.inc h2' d) (fun a => ?_) (fun a => ?_) (fun t ht => ?_) _ ?_
    · rw [← hlo0 a, polyOf_knot hfk.inc h2' d (by omega)]
      exact hd0 (by cases lo with | nil => exact absurd rfl a | cons => simp)
    · rw [← hhi0 a, polyOf_knot hfk.inc h2' d (by omega)]
      exact hdl (by cases hi with | nil => exact absurd rfl a | cons => simp)
    · obtain ⟨i, hi, rfl⟩ := List.getElem_of_mem ht
      rw [← List.getD_eq_getElem _ 0]; exact hz i hi
    · rw [List.getD_eq_getElem _ _ hk]; exact List.getElem_mem _
  choose yk hyk using hcomp
  obtain ⟨p, hp, -⟩ := C30_pline (S := S) (y := (List.range s.xk.length).map fun k i => yk i k) (extrap := extrap) hinv hS hfk.inc h2' (by simp)
  unfold plfit
  simp only [bind, Except.bind, pure, Except.pure, throw, throwThe, MonadExceptOf.throw, hset]
  rw [if_neg (by rw [e1, e2]; omega)]
  try simp only
  rw [if_neg (by omega)]
  try simp only
  rw [if_neg (by omega)]
  simp only [esx, e1, e2, e3]
  rw [seqFin_ok.mpr hyk]
  exact ⟨_, hp⟩

/-- **C32, a limit** — with two knots, both end values given and all data between them there is nothing to fit, and
`plfit` raises IndexError instead of returning the line. -/
theorem C32_two_knots_fails [NeZero m] (hs : xk.Pairwise (· < ·)) (h2 : xk.length = 2) (hx : x ≠ []) (hy : y.length = x.length)
    (hsg : (sigy.getD (y.map fun _ _ => 1)).length = y.length) (l h : Fin m → K)
    (hl : ∀ t ∈ x, xk.getD 0 0 ≤ t) (hh : ∀ t ∈ x, t ≤ xk.getD (xk.length - 1) 0) :
    plfit inv S H xk x y sigy [l] [h] false extrap = .error .indexError := by
  obtain ⟨s, hset⟩ := setup_succeeds (lo := [l]) (hi := [h]) (extrap := extrap) hs (by omega) hx (fun _ => hl) (fun _ => hh)
  obtain ⟨-, e1, e2, e3, -, hnp⟩ := setup_ok hset hs
  obtain ⟨-, esx, hfk, h2', hlo0, hhi0⟩ := hnp rfl
  have hlen : s.xk.length = 2 := by
    have : FitKnots xk x xk := ⟨hs, fun t => ⟨Or.inl, fun h => by
      rcases h with h | ⟨h1, -, h3⟩ | ⟨h1, -, h3⟩
      · exact h
      · exact absurd (h3 _ (getD_zero_mem (by rintro rfl; simp at h2))) (not_lt.mpr (hl t h1))
      · exact absurd (h3 _ (last_mem (by omega))) (not_lt.mpr (hh t h1))⟩⟩
    rw [hfk.unique this, h2]
  obtain ⟨m, rfl⟩ : ∃ m', m = m' + 1 := ⟨m - 1, by have := NeZero.ne m; omega⟩
  unfold plfit
  simp only [bind, Except.bind, pure, Except.pure, throw, throwThe, MonadExceptOf.throw, hset]
  rw [if_neg (by rw [e1, e2]; simp)]
  try simp only
  rw [if_neg (by omega)]
  try simp only
  rw [if_neg (by omega)]
  simp only [esx, e1, e2, e3, hlen, seqFin, plComp, plfitter, bind, Except.bind, throw, throwThe, MonadExceptOf.throw]
  simp

/-! ### non-trivial instances -/

/-- Five points, three knots: the best polyline. -/
example : ((plfit (m := 1) (adjInv ℚ) (exactScipy ℚ) (exactH ℚ) [0, 2, 4] [0, 1, 2, 3, 4]
      [fun _ => 0, fun _ => 1, fun _ => 1, fun _ => 1, fun _ => 2]).bind fun o =>
      [(0 : ℚ), 2, 4].mapM fun t => (o.at t).map (· 0)) = .ok [1/5, 1, 9/5] := by decide +kernel

/-- The same with both end values given, and with decreasing knots. -/
example : ((plfit (m := 1) (adjInv ℚ) (exactScipy ℚ) (exactH ℚ) [0, 2, 4] [0, 1, 2, 3, 4]
      [fun _ => 0, fun _ => 1, fun _ => 1, fun _ => 1, fun _ => 2] none [fun _ => 1] [fun _ => 5]).bind fun o =>
      [(0 : ℚ), 2, 4].mapM fun t => (o.at t).map (· 0)) = .ok [1, 1/3, 5] ∧
    ((plfit (m := 1) (adjInv ℚ) (exactScipy ℚ) (exactH ℚ) [4, 2, 0] [0, 1, 2, 3, 4]
      [fun _ => 0, fun _ => 1, fun _ => 1, fun _ => 1, fun _ => 2] none [fun _ => 5] [fun _ => 1]).bind fun o =>
      [(0 : ℚ), 2, 4].mapM fun t => (o.at t).map (· 0)) = .ok [1, 1/3, 5] := by decide +kernel

/-- Periodic, with a point outside the period; data beyond the knots otherwise extend them. -/
example : ((plfit (m := 1) (adjInv ℚ) (exactScipy ℚ) (exactH ℚ) [0, 1, 2] [0, 3, 1]
      [fun _ => 1, fun _ => 3, fun _ => 5] none [] [] true).bind fun o =>
      [(0 : ℚ), 1, 2, 5].mapM fun t => (o.at t).map (· 0)) = .ok [1, 4, 1, 4] ∧
    ((plfit (m := 1) (adjInv ℚ) (exactScipy ℚ) (exactH ℚ) [0, 1] [-1, 0, 1]
      [fun _ => 7, fun _ => 3, fun _ => 5]).bind fun o =>
      [(-2 : ℚ), -1, 0, 1, 2].mapM fun t => (o.at t).map (· 0)) = .ok [7, 7, 3, 5, 5] := by decide +kernel

end Npplus
