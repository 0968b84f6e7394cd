import Verif.Lemmas.SplinePw
import Verif.Props.PwMisc

/-!
# C24–C30: `spline` and `pline`

`inv` is `numpy.linalg.inv` (used for degree 1 by the PwPoly constructor), `S` the two scipy solvers; only
their defining equations are assumed (`InvOK`, `ScipyOK`; instances: `adjInv_ok`, `exactScipy_ok`).
-/

set_option linter.unusedSectionVars false

namespace Npplus

open Spec Finset PwPoly Spl

variable {K : Type} [Field K] [LinearOrder K] [IsStrictOrderedRing K] {V : Type} [AddCommGroup V] [Module K V]
  {inv : InvFun K} {S : Scipy K} {x : List K} {y : List V} {n : ℕ} {lo hi : List (Option V)}
  {extrap : Option (ℕ × ℕ)} {p : PwPoly K V}

theorem not_dec' (hs : x.Pairwise (· < ·)) : ¬ x.getD (x.length - 1) 0 < x.getD 0 0 := by
  rcases Nat.lt_or_ge x.length 2 with h | h
  · have : x.length - 1 = 0 := by omega
    rw [this]; exact lt_irrefl _
  · rw [List.getD_eq_getElem _ _ (by omega), List.getD_eq_getElem _ _ (by omega)]
    exact not_lt.mpr (List.pairwise_iff_getElem.mp hs 0 (x.length - 1) (by omega) (by omega) (by omega)).le

/-- The checks at the start of `spline` for increasing `x`. -/
theorem spline_checks {per : Bool} {o : SplineOut K V} (hs : x.Pairwise (· < ·))
    (h : spline inv S x y n lo hi per extrap = .ok o) :
    2 ≤ x.length ∧ y.length = x.length ∧ 1 ≤ n ∧ lo.length ≤ n - 1 ∧ hi.length ≤ n - 1 ∧
    (per = true → lo = [] ∧ hi = [] ∧ extrap = none) ∧
    (if per then (Spl.periodic inv S x y n).map .per
      else (Spl.nonper inv S x y n lo hi (extrap.getD (n - 1, n - 1))).map .pw) = .ok o := by
  unfold spline at h
  simp only [bind, Except.bind, pure, Except.pure, throw, throwThe, MonadExceptOf.throw] at h
  by_cases h1 : x.length < 2
  · rw [if_pos h1] at h; cases h
  rw [if_neg h1] at h
  by_cases h2 : y.length ≠ x.length
  · rw [if_pos h2] at h; cases h
  rw [if_neg h2] at h
  by_cases h3 : per = true ∧ (lo ≠ [] ∨ hi ≠ [] ∨ extrap ≠ none)
  · rw [if_pos h3] at h; cases h
  rw [if_neg h3, if_neg (not_dec' hs)] at h
  simp only at h
  by_cases h4 : n = 0 ∨ n - 1 < lo.length ∨ n - 1 < hi.length
  · rw [if_pos h4] at h; cases h
  rw [if_neg h4] at h
  push Not at h2 h3 h4
  exact ⟨by omega, h2, by omega, by omega, by omega, h3, h⟩

theorem spline_nonper (hs : x.Pairwise (· < ·)) (h : spline inv S x y n lo hi false extrap = .ok (.pw p)) :
    2 ≤ x.length ∧ y.length = x.length ∧ 1 ≤ n ∧ lo.length ≤ n - 1 ∧ hi.length ≤ n - 1 ∧
      Spl.nonper inv S x y n lo hi (extrap.getD (n - 1, n - 1)) = .ok p := by
  obtain ⟨a, b, c, d, e, _, f⟩ := spline_checks hs h
  refine ⟨a, b, c, d, e, ?_⟩
  cases hq : Spl.nonper inv S x y n lo hi (extrap.getD (n - 1, n - 1)) with
  | error err => simp [hq, Except.map] at f
  | ok q => simp [hq, Except.map] at f; rw [f]

/-- Derivatives of an interval at its two ends. -/
theorem seg_left {z : ℕ → V} {e : ℕ × ℕ} {j : ℕ} (hj : j + 1 < x.length) (k : ℕ) :
    pieceDeriv (truncEnds e (assemble n x y z)) (j + 1) (x.getD j 0) k =
      (Nat.factorial k : K) • (inner n x y z j).getD k 0 := by
  have ho : x.getD j 0 = origin (truncEnds e (assemble n x y z)).xk (j + 1) := by
    simp [origin, truncEnds, assemble]
  rw [ho, pieceDeriv_origin, truncEnds_inner hj]

theorem seg_right {z : ℕ → V} {e : ℕ × ℕ} {j : ℕ} (hj : j + 1 < x.length) (k : ℕ) :
    pieceDeriv (truncEnds e (assemble n x y z)) (j + 1) (x.getD (j + 1) 0) k =
      (Nat.factorial k : K) • taylorCoeff (inner n x y z j) (width x j) k := by
  unfold pieceDeriv
  have ho : origin (truncEnds e (assemble n x y z)).xk (j + 1) = x.getD j 0 := by
    simp [origin, truncEnds, assemble]
  rw [ho, truncEnds_inner hj, polyDeriv_eq]
  rfl

theorem end_left {z : ℕ → V} {e : ℕ × ℕ} (hx : 2 ≤ x.length) (k : ℕ) :
    pieceDeriv (truncEnds e (assemble n x y z)) 0 (x.getD 0 0) k =
      (Nat.factorial k : K) • if k ≤ e.1 then (inner n x y z 0).getD k 0 else 0 := by
  have ho : x.getD 0 0 = origin (truncEnds e (assemble n x y z)).xk 0 := by
    simp [origin, truncEnds, assemble]
  rw [ho, pieceDeriv_origin, truncEnds_zero hx, trunc_getD]

theorem end_right {z : ℕ → V} {e : ℕ × ℕ} (hn : 1 ≤ n) (hx : 2 ≤ x.length) (k : ℕ) :
    pieceDeriv (truncEnds e (assemble n x y z)) x.length (x.getD (x.length - 1) 0) k =
      (Nat.factorial k : K) • if k ≤ e.2 then
        taylorCoeff (inner n x y z (x.length - 2)) (width x (x.length - 2)) k else 0 := by
  have ho : x.getD (x.length - 1) 0 = origin (truncEnds e (assemble n x y z)).xk x.length := by
    simp [origin, truncEnds, assemble]
  rw [ho, pieceDeriv_origin, truncEnds_last hn hx, trunc_getD]
  congr 1
  split_ifs with h
  · rcases Nat.lt_or_ge n k with hk | hk
    · rw [List.getD_eq_default _ _ (by rw [length_tcList]; omega),
        taylorCoeff_eq_zero _ _ _ (by rw [inner_length]; omega)]
    · rw [tcList_getD _ _ _ _ hk]
  · rfl

/-! ### C24 -/

/-- **C24** — whatever the degree `n ≥ 1`, the knots, the data, the boundary conditions and `extrap`: when
`spline` returns, the result is a PwPoly of degree `n` on the given (strictly increasing) knots, evaluating
it at `x[j]` gives `y[j]`, it is continuous everywhere, and the two pieces meeting at an interior knot have
the same derivatives up to order `n-1`. -/
theorem C24_spline (hinv : InvOK inv) (hS : ScipyOK S) (hs : x.Pairwise (· < ·))
    (h : spline inv S x y n lo hi false extrap = .ok (.pw p)) :
    WF p ∧ p.xk = x ∧ p.deg = n ∧ (∀ j (hj : j < x.length), p.call x[j] = y.getD j 0) ∧ Spec.Continuous p ∧
    ∀ j, 0 < j → j + 1 < x.length → ∀ k ≤ n - 1, MatchAt p k j := by
  obtain ⟨hx, hy, hn, hlo, hhi, hp⟩ := spline_nonper hs h
  obtain ⟨z, lo', hi', rfl, sys, -, -, -⟩ := nonper_ok hinv hS hs hx hy hn hlo hhi hp
  set e := extrap.getD (n - 1, n - 1)
  have hwf : WF (truncEnds e (assemble n x y z)) := truncEnds_WF (assemble_WF hn hs hx)
  -- values at the knots from both sides
  have hval : ∀ j < x.length, pieceDeriv (truncEnds e (assemble n x y z)) j (x.getD j 0) 0 = y.getD j 0 ∧
      pieceDeriv (truncEnds e (assemble n x y z)) (j + 1) (x.getD j 0) 0 = y.getD j 0 := by
    intro j hj
    constructor
    · rcases Nat.eq_zero_or_pos j with h0 | h0
      · subst h0; rw [end_left hx, if_pos (by omega), inner_getD_zero]; simp
      · obtain ⟨i, rfl⟩ : ∃ i, j = i + 1 := ⟨j - 1, by omega⟩
        rw [seg_right hj, sys.right_val hs hj]; simp
    · rcases Nat.lt_or_ge (j + 1) x.length with h0 | h0
      · rw [seg_left h0, inner_getD_zero]; simp
      · have hj' : j = x.length - 1 := by omega
        rw [show j + 1 = x.length by omega, hj', end_right hn hx, if_pos (by omega),
          sys.right_val hs (by omega), show x.length - 2 + 1 = x.length - 1 by omega]; simp
  refine ⟨hwf, rfl, rfl, fun j hj => ?_, fun j hj => ?_, fun j h0 hj k hk => ?_⟩
  · have hc := C04_at_knot hwf j hj
    have hx' : (truncEnds e (assemble n x y z)).xk[j] = x[j] := rfl
    rw [hx'] at hc
    rw [hc, pieceVal, ← polyDeriv_zero]
    have := (hval j hj).1
    rw [List.getD_eq_getElem _ _ hj] at this
    exact this
  · exact ((hval j hj).1).trans ((hval j hj).2).symm
  · obtain ⟨i, rfl⟩ : ∃ i, j = i + 1 := ⟨j - 1, by omega⟩
    have hxk : (truncEnds e (assemble n x y z)).xk.getD (i + 1) 0 = x.getD (i + 1) 0 := rfl
    unfold MatchAt
    rw [hxk]
    rcases Nat.eq_zero_or_pos k with hk0 | hk0
    · subst hk0; exact ((hval (i + 1) (by omega)).1).trans ((hval (i + 1) (by omega)).2).symm
    · rw [seg_right (by omega), seg_left hj, sys.right_cont hs hj hk0 (by omega)]

/-! ### C25, C26 -/

/-- **C25** — the Taylor coefficients (derivatives of order `q+1` divided by `(q+1)!`) given in `lo` are taken
at `x[0]` by the first interval, those of `hi` at `x[-1]` by the last one, and the completion of the boundary
conditions by zeros is the documented one (`Completed`). -/
theorem C25_boundary (hinv : InvOK inv) (hS : ScipyOK S) (hs : x.Pairwise (· < ·))
    (h : spline inv S x y n lo hi false extrap = .ok (.pw p)) :
    ∃ lo' hi', Completed n lo hi lo' hi' ∧
      (∀ q v, bcItem lo' q = some v →
        pieceDeriv p 1 (x.getD 0 0) (q + 1) = (Nat.factorial (q + 1) : K) • v) ∧
      (∀ q v, bcItem hi' q = some v →
        pieceDeriv p (x.length - 1) (x.getD (x.length - 1) 0) (q + 1) = (Nat.factorial (q + 1) : K) • v) := by
  obtain ⟨hx, hy, hn, hlo, hhi, hp⟩ := spline_nonper hs h
  obtain ⟨z, lo', hi', rfl, sys, C, h1, h2⟩ := nonper_ok hinv hS hs hx hy hn hlo hhi hp
  refine ⟨lo', hi', C, fun q v hq => ?_, fun q v hq => ?_⟩
  · rw [seg_left (j := 0) (by omega)]
    have hqn : q < n := by
      by_contra hc
      unfold bcItem at hq
      rw [List.getD_eq_default _ _ (by have := C.len_lo; omega)] at hq; cases hq
    have hz := h1 q v hq
    rw [inner_getD_succ _ _ _ _ hqn, Nat.zero_mul, Nat.zero_add, hz]
    congr 1
    rw [smul_smul, one_div, inv_mul_cancel₀ (pow_ne_zero _ (width_ne hs (j := 0) (by omega))), one_smul]
  · obtain ⟨j, hj⟩ : ∃ j, x.length = j + 2 := ⟨x.length - 2, by omega⟩
    have hw := width_ne hs (show j + 1 < x.length by omega)
    have hz := h2 q v hq
    rw [hj, show j + 2 - 2 = j by omega] at hz
    rw [hj, show j + 2 - 1 = j + 1 by omega, seg_right (by omega)]
    have ht := inner_taylor (n := n) x y z j (q + 1) hw
    rw [if_neg (by omega), zero_add, hz] at ht
    have hp0 : width x j ^ (q + 1) ≠ 0 := pow_ne_zero _ hw
    have := congrArg (fun v => (width x j ^ (q + 1))⁻¹ • v) ht
    simp only [smul_smul, inv_mul_cancel₀ hp0, one_smul] at this
    rw [this]

/-- **C25**, the given values alone: no reference to the default rule. -/
theorem C25_given (hinv : InvOK inv) (hS : ScipyOK S) (hs : x.Pairwise (· < ·))
    (h : spline inv S x y n lo hi false extrap = .ok (.pw p)) :
    (∀ q v, bcItem lo q = some v →
        pieceDeriv p 1 (x.getD 0 0) (q + 1) = (Nat.factorial (q + 1) : K) • v) ∧
    (∀ q v, bcItem hi q = some v →
        pieceDeriv p (x.length - 1) (x.getD (x.length - 1) 0) (q + 1) = (Nat.factorial (q + 1) : K) • v) := by
  obtain ⟨lo', hi', C, h1, h2⟩ := C25_boundary hinv hS hs h
  exact ⟨fun q v hq => h1 q v (C.keep_lo q v hq), fun q v hq => h2 q v (C.keep_hi q v hq)⟩

/-- **C26** — completing the boundary conditions never fails when at most `n-1` are given and gives exactly the
documented completion; with more than `n-1` it raises (IndexError "impossible error"). -/
theorem C26_completion (hlo : lo.length ≤ n - 1) (hhi : hi.length ≤ n - 1) :
    (bcCount lo + bcCount hi ≤ n - 1 → ∃ lo' hi' nlo, Spl.fillBC n lo hi = .ok (lo', hi', nlo) ∧
      nlo = bcCount lo' ∧ Completed n lo hi lo' hi') ∧
    (n - 1 < bcCount lo + bcCount hi → Spl.fillBC n lo hi = .error .indexError) := by
  rw [bcCount_eq, bcCount_eq]
  refine ⟨fun h => ?_, fillBC_error⟩
  obtain ⟨lo', hi', nlo, e1, e2, _, C⟩ := fillBC_ok hlo hhi h
  exact ⟨lo', hi', nlo, e1, by rw [bcCount_eq, e2], C⟩

/-- **C26**, as an effect of `spline`: too many boundary values always raise: IndexError, or TypeError when one
of the lists is too long (for every `x` that passes the first checks). -/
theorem C26_too_many (hx : 2 ≤ x.length) (hy : y.length = x.length) (hn : 2 ≤ n) 
    (h : n - 1 < bcCount lo + bcCount hi) :
    spline inv S x y n lo hi false extrap = .error
      (if n - 1 < lo.length ∨ n - 1 < hi.length then .typeError else .indexError) := by
  rw [bcCount_eq, bcCount_eq] at h
  unfold spline
  simp only [bind, Except.bind, pure, Except.pure, throw, throwThe, MonadExceptOf.throw]
  rw [if_neg (by omega), if_neg (by simpa using hy), if_neg (by simp)]
  split_ifs with h1 h2 h3 h4 h5 <;> simp only [] at * 
  all_goals first
    | rfl
    | (exfalso; omega)
    | (unfold Spl.nonper
       simp only [bind, Except.bind, pure, Except.pure]
       rw [if_neg (by omega), fillBC_error (by omega)]; rfl)

/-- The two lists as one family of slots. -/
def slot (lo hi : List (Option V)) (b : Bool) (q : ℕ) : Option V := bcItem (if b then hi else lo) q

theorem bcCount_sum (l : List (Option V)) (N : ℕ) (h : l.length ≤ N) :
    bcCount l = ∑ q ∈ range N, if (bcItem l q).isSome then 1 else 0 := by
  induction l generalizing N with
  | nil => simp [bcCount, bcItem]
  | cons o l ih =>
    obtain ⟨M, rfl⟩ : ∃ M, N = M + 1 := ⟨N - 1, by simp at h; omega⟩
    rw [sum_range_succ']
    have := ih M (by simpa using h)
    cases o <;> simp [bcCount, bcItem] at * <;> omega

theorem slot_rule {lo' hi' : List (Option V)} (h : Completed n lo hi lo' hi') {b b' : Bool} {q q' : ℕ}
    (h1 : slot lo hi b q = none) (h2 : (slot lo' hi' b q).isSome) (hq' : q' < n - 1)
    (hlt : q < q' ∨ (q = q' ∧ b = true ∧ b' = false)) : (slot lo' hi' b' q').isSome := by
  obtain ⟨v, hv⟩ := Option.isSome_iff_exists.mp h2
  cases b with
  | false =>
    have := (h.new_lo q v h1 hv).2
    rcases hlt with hlt | hlt
    · cases b'
      · exact (this q' hlt hq').1
      · exact (this q' hlt hq').2
    · simp at hlt
  | true =>
    obtain ⟨_, h3, h4⟩ := h.new_hi q v h1 hv
    rcases hlt with hlt | ⟨rfl, _, rfl⟩
    · cases b'
      · exact (h4 q' hlt hq').1
      · exact (h4 q' hlt hq').2
    · exact h3

theorem slot_lt {lo' hi' : List (Option V)} (h : Completed n lo hi lo' hi') {b : Bool} {q : ℕ}
    (h2 : (slot lo' hi' b q).isSome) : q < n - 1 := by
  by_contra hc
  have h3 := h.len_lo
  have h4 := h.len_hi
  unfold slot bcItem at h2
  rw [List.getD_eq_default _ _ (by split_ifs <;> omega)] at h2
  cases h2

theorem slot_keep {lo' hi' : List (Option V)} (h : Completed n lo hi lo' hi') {b : Bool} {q : ℕ} {v : V}
    (h2 : slot lo hi b q = some v) : slot lo' hi' b q = some v := by
  cases b
  · exact h.keep_lo q v h2
  · exact h.keep_hi q v h2

theorem slot_subset {lo1 hi1 lo2 hi2 : List (Option V)} (h1 : Completed n lo hi lo1 hi1)
    (h2 : Completed n lo hi lo2 hi2) :
    (∀ b q, (slot lo1 hi1 b q).isSome → (slot lo2 hi2 b q).isSome) ∨
    (∀ b q, (slot lo2 hi2 b q).isSome → (slot lo1 hi1 b q).isSome) := by
  by_cases hc : ∀ b q, (slot lo1 hi1 b q).isSome → (slot lo2 hi2 b q).isSome
  · exact Or.inl hc
  right
  push Not at hc
  obtain ⟨b, q, hs1, hs2⟩ := hc
  have hs0 : slot lo hi b q = none := by
    cases h0 : slot lo hi b q with
    | none => rfl
    | some v => rw [slot_keep h2 h0] at hs2; simp at hs2
  intro b' q' ht
  cases ht0 : slot lo hi b' q' with
  | some v => rw [slot_keep h1 ht0]; rfl
  | none =>
    by_cases hlt : q < q' ∨ (q = q' ∧ b = true ∧ b' = false)
    · exact slot_rule h1 hs0 hs1 (slot_lt h2 ht) hlt
    · by_cases hlt' : q' < q ∨ (q' = q ∧ b' = true ∧ b = false)
      · exact absurd (slot_rule h2 ht0 ht (slot_lt h1 hs1) hlt') (by simpa using hs2)
      · have hq : q = q' := by
          push Not at hlt hlt'; exact le_antisymm hlt'.1 hlt.1
        subst hq
        cases b <;> cases b' <;> simp at * <;> simp_all

/-- **C26** — the completion is determined by the rule: two completions of the same conditions agree. -/
theorem C26_unique {lo1 hi1 lo2 hi2 : List (Option V)} (h1 : Completed n lo hi lo1 hi1)
    (h2 : Completed n lo hi lo2 hi2) (q : ℕ) :
    bcItem lo1 q = bcItem lo2 q ∧ bcItem hi1 q = bcItem hi2 q := by
  -- the same slots are specified
  have key : ∀ {lo1 hi1 lo2 hi2 : List (Option V)}, Completed n lo hi lo1 hi1 → Completed n lo hi lo2 hi2 →
      (∀ b q, (slot lo1 hi1 b q).isSome → (slot lo2 hi2 b q).isSome) →
      ∀ b q, slot lo1 hi1 b q = slot lo2 hi2 b q := by
    intro lo1 hi1 lo2 hi2 h1 h2 hsub
    have e1 := h1.total
    have e2 := h2.total
    rw [bcCount_sum _ _ h1.len_lo, bcCount_sum _ _ h1.len_hi, ← sum_add_distrib] at e1
    rw [bcCount_sum _ _ h2.len_lo, bcCount_sum _ _ h2.len_hi, ← sum_add_distrib] at e2
    have hle : ∀ q ∈ range (n - 1),
        (((if (bcItem lo1 q).isSome then 1 else 0) + (if (bcItem hi1 q).isSome then 1 else 0) : ℕ)) ≤
        (if (bcItem lo2 q).isSome then 1 else 0) + (if (bcItem hi2 q).isSome then 1 else 0) := by
      intro q _
      have a1 : (bcItem lo1 q).isSome → (bcItem lo2 q).isSome := hsub false q
      have a2 : (bcItem hi1 q).isSome → (bcItem hi2 q).isSome := hsub true q
      split_ifs <;> simp_all
    have heq := (sum_eq_sum_iff_of_le hle).mp (e1.trans e2.symm)
    have hiff : ∀ b q, (slot lo2 hi2 b q).isSome → (slot lo1 hi1 b q).isSome := by
      intro b q hs
      have := heq q (mem_range.mpr (slot_lt h2 hs))
      have a1 : (bcItem lo1 q).isSome → (bcItem lo2 q).isSome := hsub false q
      have a2 : (bcItem hi1 q).isSome → (bcItem hi2 q).isSome := hsub true q
      cases b
      · change (bcItem lo2 q).isSome at hs
        change (bcItem lo1 q).isSome
        by_contra hc
        rw [if_pos hs, if_neg hc] at this
        split_ifs at this <;> simp_all
      · change (bcItem hi2 q).isSome at hs
        change (bcItem hi1 q).isSome
        by_contra hc
        rw [if_pos hs, if_neg hc] at this
        split_ifs at this <;> simp_all
    intro b q
    cases h0 : slot lo hi b q with
    | some v => rw [slot_keep h1 h0, slot_keep h2 h0]
    | none =>
      cases ha : slot lo1 hi1 b q with
      | none =>
        cases hb : slot lo2 hi2 b q with
        | none => rfl
        | some w => have := hiff b q (by rw [hb]; rfl); rw [ha] at this; cases this
      | some v =>
        have := hsub b q (by rw [ha]; rfl)
        obtain ⟨w, hw⟩ := Option.isSome_iff_exists.mp this
        rw [hw]
        cases b
        · rw [(h1.new_lo q v h0 ha).1, (h2.new_lo q w h0 hw).1]
        · rw [(h1.new_hi q v h0 ha).1, (h2.new_hi q w h0 hw).1]
  rcases slot_subset h1 h2 with hsub | hsub
  · exact ⟨key h1 h2 hsub false q, key h1 h2 hsub true q⟩
  · exact ⟨(key h2 h1 hsub false q).symm, (key h2 h1 hsub true q).symm⟩

/-! ### C28 -/

theorem polyVal_trunc (a : ℕ) (l : List V) (t : K) :
    polyVal (trunc a l) t = ∑ k ∈ range (a + 1), t ^ k • l.getD k 0 := by
  unfold polyVal
  rw [trunc_length]
  have h1 : ∀ N, l.length ≤ N → ∑ i ∈ range l.length, t ^ i • (trunc a l).getD i 0 =
      ∑ i ∈ range N, t ^ i • (trunc a l).getD i 0 := by
    intro N hN
    refine sum_subset (range_mono hN) fun i _ hi => ?_
    rw [mem_range, not_lt] at hi
    rw [List.getD_eq_default _ _ (by rw [trunc_length]; exact hi), smul_zero]
  rw [h1 (l.length + (a + 1)) (by omega)]
  symm
  rw [← sum_subset (range_mono (show a + 1 ≤ l.length + (a + 1) by omega))]
  · refine sum_congr rfl fun k hk => ?_
    rw [mem_range] at hk
    rw [trunc_getD, if_pos (by omega)]
  · intro i _ hi
    rw [mem_range, not_lt] at hi
    rw [trunc_getD, if_neg (by omega), smul_zero]

/-- **C28** — with `extrap=(a,b)` (default `(n-1,n-1)`), left of the first knot the spline is the Taylor
polynomial of degree `a` of the first interval at `x[0]`, right of the last knot that of degree `b` of the last
interval at `x[-1]`; `a` (`b`) derivatives are continuous at the end knot and the higher ones of the
extrapolation are zero. -/
theorem C28_extrapolation (hinv : InvOK inv) (hS : ScipyOK S) (hs : x.Pairwise (· < ·))
    (h : spline inv S x y n lo hi false extrap = .ok (.pw p)) {a b : ℕ}
    (hab : extrap = some (a, b) ∨ (extrap = none ∧ a = n - 1 ∧ b = n - 1)) :
    (∀ t, t ≤ x.getD 0 0 → p.call t = ∑ k ∈ range (a + 1),
      ((t - x.getD 0 0) ^ k / (Nat.factorial k : K)) • pieceDeriv p 1 (x.getD 0 0) k) ∧
    (∀ t, x.getD (x.length - 1) 0 ≤ t → p.call t = ∑ k ∈ range (b + 1),
      ((t - x.getD (x.length - 1) 0) ^ k / (Nat.factorial k : K)) •
        pieceDeriv p (x.length - 1) (x.getD (x.length - 1) 0) k) ∧
    (∀ k ≤ a, MatchAt p k 0) ∧ (∀ k ≤ b, MatchAt p k (x.length - 1)) ∧
    (∀ k, a < k → pieceDeriv p 0 (x.getD 0 0) k = 0) ∧
    (∀ k, b < k → pieceDeriv p x.length (x.getD (x.length - 1) 0) k = 0) := by
  have hwf := (C24_spline hinv hS hs h).1
  have hcall := (C24_spline hinv hS hs h).2.2.2.1
  obtain ⟨hx, hy, hn, hlo, hhi, hp⟩ := spline_nonper hs h
  obtain ⟨z, lo', hi', rfl, sys, -, -, -⟩ := nonper_ok hinv hS hs hx hy hn hlo hhi hp
  have he : extrap.getD (n - 1, n - 1) = (a, b) := by
    rcases hab with rfl | ⟨rfl, rfl, rfl⟩ <;> rfl
  rw [he] at hwf hcall ⊢
  set e := (a, b) with hee
  set P := truncEnds e (assemble n x y z) with hP
  have hxk : P.xk = x := rfl
  have hfac : ∀ k : ℕ, (Nat.factorial k : K) ≠ 0 := fun k => Nat.cast_ne_zero.mpr (Nat.factorial_ne_zero k)
  obtain ⟨j, hj⟩ : ∃ j, x.length = j + 2 := ⟨x.length - 2, by omega⟩
  have hlast : pieceDeriv P (x.length - 1) (x.getD (x.length - 1) 0) =
      fun k => (Nat.factorial k : K) • taylorCoeff (inner n x y z (x.length - 2)) (width x (x.length - 2)) k := by
    funext k
    rw [hj, show j + 2 - 1 = j + 1 by omega, show j + 2 - 2 = j by omega]
    exact seg_right (by omega) k
  have hlastv : ∀ t, pieceVal P x.length t = ∑ k ∈ range (b + 1),
      ((t - x.getD (x.length - 1) 0) ^ k / (Nat.factorial k : K)) •
        pieceDeriv P (x.length - 1) (x.getD (x.length - 1) 0) k := by
    intro t
    rw [hlast]
    unfold pieceVal
    rw [truncEnds_last hn hx, polyVal_trunc]
    refine sum_congr rfl fun k _ => ?_
    have ho : origin P.xk x.length = x.getD (x.length - 1) 0 := rfl
    rw [ho, smul_smul, div_mul_cancel₀ _ (hfac k)]
    congr 1
    rcases Nat.lt_or_ge n k with hk | hk
    · rw [List.getD_eq_default _ _ (by rw [length_tcList]; omega),
        taylorCoeff_eq_zero _ _ _ (by rw [inner_length]; omega)]
    · rw [tcList_getD _ _ _ _ hk]
  refine ⟨fun t ht => ?_, fun t ht => ?_, fun k hk => ?_, fun k hk => ?_, fun k hk => ?_, fun k hk => ?_⟩
  · have hin : InPiece P.xk 0 t := by
      refine ⟨by omega, fun i _ h0 => by omega, fun i hi _ => le_trans ht ?_⟩
      rw [List.getD_eq_getElem _ _ (by omega)]
      rcases Nat.eq_zero_or_pos i with h0 | h0
      · subst h0; exact le_rfl
      · exact (List.pairwise_iff_getElem.mp hs 0 i (by omega) hi h0).le
    rw [((C04_call_partial hwf t).2 0 hin).1]
    unfold pieceVal
    rw [truncEnds_zero hx, polyVal_trunc]
    refine sum_congr rfl fun k _ => ?_
    have ho : origin P.xk 0 = x.getD 0 0 := rfl
    rw [ho, seg_left (j := 0) (by omega), smul_smul, div_mul_cancel₀ _ (hfac k)]
  · rcases eq_or_lt_of_le ht with heq | hlt
    · have h1 := hcall (x.length - 1) (by omega)
      rw [← List.getD_eq_getElem _ 0 (by omega)] at h1
      rw [← heq, h1, sum_eq_single 0]
      · rw [congrFun hlast 0, sys.right_val hs (j := x.length - 2) (by omega), show x.length - 2 + 1 = x.length - 1 by omega]; simp
      · intro k _ hk; rw [sub_self, zero_pow hk, zero_div, zero_smul]
      · intro h0; simp at h0
    · have hin : InPiece P.xk x.length t := by
        refine ⟨le_rfl, fun i hi _ => lt_of_le_of_lt ?_ hlt, fun i hi h0 => by rw [hxk] at hi; omega⟩
        rw [List.getD_eq_getElem _ _ (by omega)]
        rcases Nat.eq_or_lt_of_le (show i ≤ x.length - 1 by rw [hxk] at hi; omega) with h0 | h0
        · subst h0; exact le_rfl
        · exact (List.pairwise_iff_getElem.mp hs i (x.length - 1) (by rw [hxk] at hi; omega) (by omega) h0).le
      rw [((C04_call_partial hwf t).2 _ hin).1, hlastv]
  · unfold MatchAt
    have hg : P.xk.getD 0 0 = x.getD 0 0 := rfl
    rw [hg, end_left hx, if_pos hk, seg_left (j := 0) (by omega)]
  · unfold MatchAt
    have hg : P.xk.getD (x.length - 1) 0 = x.getD (x.length - 1) 0 := rfl
    rw [hg, show x.length - 1 + 1 = x.length by omega, end_right hn hx, if_pos hk, hlast]
  · rw [end_left hx, if_neg (by simp [hee]; omega), smul_zero]
  · rw [end_right hn hx, if_neg (by simp [hee]; omega), smul_zero]

/-! ### C27 -/

theorem trunc_id {e : ℕ} {l : List V} (h : l.length ≤ e + 1) : trunc e l = l := by
  apply list_ext_getD 0 (trunc_length _ _)
  intro i hi
  rw [trunc_length] at hi
  rw [trunc_getD, if_pos (by omega)]

theorem truncEnds_id {z : ℕ → V} (hn : 1 ≤ n) (hx : 2 ≤ x.length) (hs : x.Pairwise (· < ·)) :
    truncEnds (n, n) (assemble n x y z) = assemble n x y z := by
  have hwf := assemble_WF (n := n) (y := y) (z := z) hn hs hx
  have : (truncEnds (n, n) (assemble n x y z)).c = (assemble n x y z).c := by
    apply list_ext_getD []
    · simp [truncEnds]
    · intro i hi
      have hi' : i < (assemble n x y z).c.length := by simpa [truncEnds] using hi
      change piece (truncEnds (n, n) (assemble n x y z)) i = piece (assemble n x y z) i
      have hl := hwf.piece_length (i := i) (by rw [hwf.len] at hi'; omega)
      have hn' : (assemble n x y z).n = n + 1 := rfl
      rw [truncEnds_piece _ hi']
      split_ifs <;> simp [trunc_id, hl, hn']
  calc truncEnds (n, n) (assemble n x y z)
      = ⟨x, n + 1, (truncEnds (n, n) (assemble n x y z)).c⟩ := rfl
    _ = assemble n x y z := by rw [this]; rfl

theorem new_assemble {z : ℕ → V} (hn : 1 ≤ n) (hx : 2 ≤ x.length) :
    PerPwPoly.new (assemble n x y z) =
      .ok ⟨assemble n x y z, some (x.getD (x.length - 1) 0 - x.getD 0 0)⟩ := by
  have hxk : (assemble n x y z).xk = x := rfl
  have hl := assemble_clen (n := n) (y := y) (z := z) hx
  have h1 : (assemble n x y z).c.set 0 ((assemble n x y z).c.getD 1 []) = (assemble n x y z).c := by
    have : (assemble n x y z).c.getD 1 [] = inner n x y z 0 := assemble_inner (j := 0) (by omega)
    rw [this]; rfl
  have h2 : (assemble n x y z).c.set ((assemble n x y z).c.length - 1)
      (polyddx ((assemble n x y z).c.getD ((assemble n x y z).c.length - 1 - 1) [])
        (x.getD (x.length - 1) 0 - x.getD (x.length - 2) 0) ((assemble n x y z).n - 1)) =
      (assemble n x y z).c := by
    apply list_ext_getD [] (by simp)
    intro i hi
    rw [List.length_set] at hi
    by_cases h : i = (assemble n x y z).c.length - 1
    · subst h
      rw [List.getD_eq_getElem?_getD, List.getElem?_set_self hi, hl, Nat.add_sub_cancel]
      have e1 : (assemble n x y z).c.getD x.length [] = _ := assemble_last hn hx
      have e2 : (assemble n x y z).c.getD (x.length - 1) [] = inner n x y z (x.length - 2) := by
        have := assemble_inner (n := n) (y := y) (z := z) (x := x) (j := x.length - 2) (by omega)
        rwa [show x.length - 2 + 1 = x.length - 1 by omega] at this
      rw [e1, e2, Option.getD_some, polyddx_eq _ _ _ (Or.inl (by rw [inner_length]; omega))]
      unfold width
      rw [show x.length - 2 + 1 = x.length - 1 by omega]; rfl
    · rw [List.getD_eq_getElem?_getD, List.getElem?_set_ne (by omega), List.getD_eq_getElem?_getD]
  unfold PerPwPoly.new
  rw [if_neg (by rw [hxk]; omega)]
  simp only [h1, hxk]
  rw [h2]
  rfl

theorem periodic_ok (hinv : InvOK inv) (hS : ScipyOK S) (hs : x.Pairwise (· < ·)) (hx : 2 ≤ x.length)
    (hy : y.length = x.length) (hn : 1 ≤ n) {P : PerPwPoly K V}
    (h : Spl.periodic inv S x y n = .ok P) :
    ∃ z e y', y' = y.set (y.length - 1) (y.getD 0 0) ∧ P.base = truncEnds e (assemble n x y' z) ∧
      P.period = some (x.getD (x.length - 1) 0 - x.getD 0 0) ∧ Sys n x y' z ∧
      ∀ m, 1 ≤ m → m < n →
        ∑ q ∈ range n, ((q + 1).choose m : K) • z ((x.length - 2) * n + q) =
          (width x (x.length - 2) / width x 0) ^ m • z (m - 1) := by
  set y' := y.set (y.length - 1) (y.getD 0 0) with hy'
  have hyl : y'.length = x.length := by simp [hy', hy]
  unfold Spl.periodic at h
  simp only [bind, Except.bind, pure, Except.pure] at h
  rw [← hy'] at h
  by_cases hn2 : n < 2
  · have hn1 : n = 1 := by omega
    subst hn1
    rw [if_pos hn2, init_odd inv hs hx (by simp) (by simpa using hyl)] at h
    simp only at h
    have hq := initPieces_length inv x [y'] none hx
    set q := initPieces inv x [y'] none with hqd
    have hqx : q.xk = x := rfl
    unfold PerPwPoly.new at h
    rw [if_neg (by rw [hqx]; omega)] at h
    simp only at h
    cases h
    refine ⟨zlin y', (0, 0), y', rfl, ?_, rfl, zlin_sys, fun m h1 h2 => by omega⟩
    refine linear_eq hx rfl rfl (by simp [hq]) (fun j hj => ?_)
    rw [← init_lin_inner hinv hs hx hj, ← hqd]
    unfold piece
    simp only [List.length_set]
    rw [List.getD_eq_getElem?_getD, List.getElem?_set_ne (by omega), List.getElem?_set_ne (by omega),
      ← List.getD_eq_getElem?_getD]
  · rw [if_neg hn2] at h
    cases hb : solvePeriodic S 1 (n - 1) ⟨n + 1, (x.length - 1) * n, baseAB n (x.length - 1) (width x)⟩
        ((x.length - 1) * n) (baseB n y') with
    | error err => rw [hb] at h; cases h
    | ok z =>
      rw [hb] at h
      simp only at h
      rw [new_assemble hn hx] at h
      cases h
      obtain ⟨_, hle, hsol⟩ := C37_solve_periodic hS hb
      simp only at hle hsol
      set nk1 := x.length - 1 with hnk1
      have hN : 0 < nk1 * n := Nat.mul_pos (by omega) (by omega)
      have hrow : ∀ i < nk1 * n, ∑ r ∈ range (n + 1),
          baseAB n nk1 (width x) r ((i + (n - 1) + (nk1 * n - r)) % (nk1 * n)) •
            z ((i + (n - 1) + (nk1 * n - r)) % (nk1 * n)) = baseB n y' i := by
        intro i hi
        rw [← hsol i hi, cyclic_row 1 (n - 1) (nk1 * n) hN hle, show 1 + (n - 1) + 1 = n + 1 by omega]
      have hval : ∀ j < nk1, ∑ q ∈ range n, z (j * n + q) = y'.getD (j + 1) 0 - y'.getD j 0 := by
        intro j hj
        have hjn := block_lt (show 0 < n by omega) hj
        rw [← cyc_val (by omega) (width x) z hj, hrow _ (by omega)]
        unfold baseB
        rw [Nat.mul_mod_left, if_pos rfl, Nat.mul_div_cancel _ (by omega)]
      have hcont : ∀ j < nk1, ∀ m, 1 ≤ m → m < n → ∑ q ∈ range n, ((q + 1).choose m : K) • z (j * n + q) =
          (width x j / width x ((j + 1) % nk1)) ^ m • z (((j + 1) % nk1) * n + (m - 1)) := by
        intro j hj m hm hmn
        have := cyc_cont (width x) z hj hm hmn
        rw [hrow _ (block_lt hmn hj)] at this
        unfold baseB at this
        rw [(flat_div (r := j) hmn).2, if_neg (by omega)] at this
        exact sub_eq_zero.mp this.symm
      refine ⟨z, (n, n), y', rfl, (truncEnds_id hn hx hs).symm, rfl, ⟨hval, fun j hj m hm hmn => ?_⟩,
        fun m hm hmn => ?_⟩
      · rw [hcont j (by omega) m hm hmn, Nat.mod_eq_of_lt (by omega)]
      · have := hcont (nk1 - 1) (by omega) m hm hmn
        rw [show nk1 - 1 + 1 = nk1 by omega, Nat.mod_self, Nat.zero_mul, Nat.zero_add,
          show nk1 - 1 = x.length - 2 by omega] at this
        exact this

/-- **C27** — a periodic spline (`per=True`) is a PerPwPoly of degree `n` on the given knots with period
`x[-1]-x[0]`: it is periodic, takes the value `y[j]` at `x[j]` for every `j` but the last, where it takes `y[0]`
(`y[-1]` is ignored); inside the period it is given by the pieces between the knots, which have `n-1`
continuous derivatives at every interior knot, and across the end of the period. -/
theorem C27_periodic [FloorRing K] (hinv : InvOK inv) (hS : ScipyOK S) (hs : x.Pairwise (· < ·))
    {P : PerPwPoly K V} (h : spline inv S x y n lo hi true extrap = .ok (.per P)) :
    ∃ per, P.period = some per ∧ per = x.getD (x.length - 1) 0 - x.getD 0 0 ∧ 0 < per ∧ WF P.base ∧
      P.base.xk = x ∧ P.base.deg = n ∧
      (∀ t (m : ℤ), P.call (t + m * per) = P.call t) ∧
      (∀ j, j + 1 < x.length → P.call (x.getD j 0) = .ok (y.getD j 0)) ∧
      P.call (x.getD (x.length - 1) 0) = .ok (y.getD 0 0) ∧
      (∀ t, x.getD 0 0 < t → t < x.getD (x.length - 1) 0 → ∀ i, InPiece x i t →
        P.call t = .ok (pieceVal P.base i t)) ∧
      (∀ j, 0 < j → j + 1 < x.length → ∀ k ≤ n - 1, MatchAt P.base k j) ∧
      ∀ k ≤ n - 1, pieceDeriv P.base (x.length - 1) (x.getD (x.length - 1) 0) k =
        pieceDeriv P.base 1 (x.getD 0 0) k := by
  obtain ⟨hx, hy, hn, -, -, -, h⟩ := spline_checks hs h
  cases hq : Spl.periodic inv S x y n with
  | error err => simp [hq, Except.map] at h
  | ok Q =>
  simp [hq, Except.map] at h
  subst h
  obtain ⟨z, e, y', hy', hbase, hper, sys, hwrap⟩ := periodic_ok hinv hS hs hx hy hn hq
  have hwf : WF Q.base := by rw [hbase]; exact truncEnds_WF (assemble_WF hn hs hx)
  have hxk : Q.base.xk = x := by rw [hbase]; rfl
  set x0 := x.getD 0 0 with hx0
  set xl := x.getD (x.length - 1) 0 with hxl
  have hmono : ∀ i j, i < j → j < x.length → x.getD i 0 < x.getD j 0 := by
    intro i j hij hj
    rw [List.getD_eq_getElem _ _ (by omega), List.getD_eq_getElem _ _ hj]
    exact List.pairwise_iff_getElem.mp hs i j (by omega) hj hij
  have hlt : 0 < xl - x0 := sub_pos.mpr (hmono 0 (x.length - 1) (by omega) (by omega))
  have hcall : ∀ t, Q.call t = .ok (Q.base.call (x0 + pmod (t - x0) (xl - x0))) := by
    intro t; unfold PerPwPoly.call; rw [hper, hxk]
  -- values at the knots
  have hknot : ∀ j, j + 1 < x.length → Q.base.call (x.getD j 0) = y.getD j 0 := by
    intro j hj
    have hc := C04_at_knot hwf j (by rw [hxk]; omega)
    have e1 : Q.base.xk[j]'(by rw [hxk]; omega) = x.getD j 0 := by
      rw [List.getD_eq_getElem _ _ (by omega)]; simp only [hxk]
    rw [e1] at hc
    have ey : y'.getD j 0 = y.getD j 0 := by
      rw [hy', List.getD_eq_getElem?_getD, List.getElem?_set_ne (by omega), List.getD_eq_getElem?_getD]
    rw [hc, pieceVal, ← polyDeriv_zero]
    change pieceDeriv Q.base j (x.getD j 0) 0 = _
    rw [hbase]
    rcases Nat.eq_zero_or_pos j with h0 | h0
    · subst h0
      rw [end_left hx, if_pos (by omega), inner_getD_zero, ey]; simp
    · obtain ⟨i, rfl⟩ : ∃ i, j = i + 1 := ⟨j - 1, by omega⟩
      rw [seg_right (by omega), sys.right_val hs (by omega), ey]; simp
  have hval : ∀ j, j + 1 < x.length → Q.call (x.getD j 0) = .ok (y.getD j 0) := by
    intro j hj
    have h1 : x0 ≤ x.getD j 0 := by
      rcases Nat.eq_zero_or_pos j with h0 | h0
      · subst h0; exact le_rfl
      · exact (hmono 0 j h0 (by omega)).le
    have h2 : x.getD j 0 < xl := hmono j (x.length - 1) (by omega) (by omega)
    rw [hcall, pmod_eq_self (by linarith) (by linarith), add_sub_cancel, hknot j hj]
  have hperiod : ∀ t (m : ℤ), Q.call (t + m * (xl - x0)) = Q.call t := by
    intro t m
    rw [hcall, hcall, show t + m * (xl - x0) - x0 = (t - x0) + m * (xl - x0) by ring, pmod_add _ hlt]
  refine ⟨xl - x0, hper, rfl, hlt, hwf, hxk, by rw [hbase]; rfl, hperiod, hval, ?_, fun t h1 h2 i hi => ?_,
    fun j h0 hj k hk => ?_, fun k hk => ?_⟩
  · have := hperiod x0 1
    rw [show x0 + ((1 : ℤ) : K) * (xl - x0) = xl by push_cast; ring] at this
    rw [this]; exact hval 0 (by omega)
  · rw [hcall, pmod_eq_self (by linarith) (by linarith), add_sub_cancel,
      ((C04_call_partial hwf t).2 i (by rw [hxk]; exact hi)).1]
  · obtain ⟨i, rfl⟩ : ∃ i, j = i + 1 := ⟨j - 1, by omega⟩
    unfold MatchAt
    rw [hxk, hbase, seg_right (by omega), seg_left hj]
    rcases Nat.eq_zero_or_pos k with hk0 | hk0
    · subst hk0; rw [sys.right_val hs (by omega), inner_getD_zero]
    · rw [sys.right_cont hs hj hk0 (by omega)]
  · obtain ⟨j, hj⟩ : ∃ j, x.length = j + 2 := ⟨x.length - 2, by omega⟩
    have hw := width_ne hs (show j + 1 < x.length by omega)
    have hw0 := width_ne hs (show 0 + 1 < x.length by omega)
    rw [hbase, hxl, hj, show j + 2 - 1 = j + 1 by omega, seg_right (by omega), hx0, seg_left (j := 0) (by omega)]
    congr 1
    rcases Nat.eq_zero_or_pos k with hk0 | hk0
    · subst hk0
      rw [sys.right_val hs (by omega), inner_getD_zero, hy', hy, hj, show j + 2 - 1 = j + 1 by omega,
        List.getD_eq_getElem?_getD, List.getElem?_set_self (by omega)]
      conv_rhs => rw [List.getD_eq_getElem?_getD, List.getElem?_set_ne (by omega : j + 1 ≠ 0)]
      rfl
    · have ht := inner_taylor (n := n) x y' z j k hw
      have hwr := hwrap k hk0 (by omega)
      rw [hj, show j + 2 - 2 = j by omega] at hwr
      rw [if_neg (by omega), zero_add, hwr] at ht
      obtain ⟨q, rfl⟩ : ∃ q, k = q + 1 := ⟨k - 1, by omega⟩
      rw [inner_getD_succ _ _ _ _ (by omega), Nat.zero_mul, Nat.zero_add]
      have hp0 : width x j ^ (q + 1) ≠ 0 := pow_ne_zero _ hw
      have := congrArg (fun v => (width x j ^ (q + 1))⁻¹ • v) ht
      simp only [smul_smul, inv_mul_cancel₀ hp0, one_smul] at this
      rw [this, Nat.add_sub_cancel]
      congr 1
      rw [div_pow]; field_simp

/-! ### C29 -/

/-- **C29** — for decreasing `x`, `spline(x, y, lo, hi, extrap=(a,b))` is `spline(x[::-1], y[::-1], lo=hi, hi=lo,
extrap=(b,a))`, result or exception (also for `per=True`). -/
theorem C29_decreasing (hs : x.Pairwise (· > ·)) (per : Bool) :
    spline inv S x y n lo hi per extrap =
      spline inv S x.reverse y.reverse n hi lo per (extrap.map Prod.swap) := by
  unfold spline
  simp only [bind, Except.bind, pure, Except.pure, throw, throwThe, MonadExceptOf.throw, List.length_reverse]
  by_cases h1 : x.length < 2
  · rw [if_pos h1, if_pos h1]
  rw [if_neg h1, if_neg h1]
  by_cases h2 : y.length ≠ x.length
  · rw [if_pos h2, if_pos h2]
  rw [if_neg h2, if_neg h2]
  have h3 : (per = true ∧ (hi ≠ [] ∨ lo ≠ [] ∨ extrap.map Prod.swap ≠ none)) ↔
      (per = true ∧ (lo ≠ [] ∨ hi ≠ [] ∨ extrap ≠ none)) := by
    have : extrap.map Prod.swap ≠ none ↔ extrap ≠ none := by simp
    rw [this]; tauto
  rw [if_congr h3 rfl rfl]
  have hd : x.getD (x.length - 1) 0 < x.getD 0 0 := by
    rw [List.getD_eq_getElem _ _ (by omega), List.getD_eq_getElem _ _ (by omega)]
    exact List.pairwise_iff_getElem.mp hs 0 (x.length - 1) (by omega) (by omega) (by omega)
  have hd' : ¬ x.reverse.getD (x.length - 1) 0 < x.reverse.getD 0 0 := by
    have := not_dec' (x := x.reverse) (List.pairwise_reverse.mpr hs)
    simpa using this
  rw [if_pos hd, if_neg hd']
  have he : (extrap.map Prod.swap).getD (n - 1, n - 1) =
      ((extrap.getD (n - 1, n - 1)).2, (extrap.getD (n - 1, n - 1)).1) := by
    cases extrap <;> rfl
  simp only [he]

/-- **C29** with C24: a spline through points with decreasing `x` also interpolates them. -/
theorem C29_interpolates (hinv : InvOK inv) (hS : ScipyOK S) (hs : x.Pairwise (· > ·))
    (h : spline inv S x y n lo hi false extrap = .ok (.pw p)) :
    p.xk = x.reverse ∧ ∀ j (hj : j < x.length), p.call x[j] = y.getD j 0 := by
  rw [C29_decreasing hs] at h
  have hs' : x.reverse.Pairwise (· < ·) := List.pairwise_reverse.mpr hs
  obtain ⟨_, h1, _, h2, _⟩ := C24_spline hinv hS hs' h
  have hy := (spline_nonper hs' h).2.1
  simp only [List.length_reverse] at hy
  refine ⟨h1, fun j hj => ?_⟩
  have := h2 (x.length - 1 - j) (by simp; omega)
  rw [List.getElem_reverse] at this
  simp only [show x.length - 1 - (x.length - 1 - j) = j by omega] at this
  rw [this, List.getD_eq_getElem?_getD, List.getElem?_reverse (by omega), List.getD_eq_getElem?_getD]
  congr 2; omega

end Npplus
