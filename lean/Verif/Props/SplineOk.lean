import Verif.Lemmas.SplineOk
import Verif.Props.Pline

/-!
# C24, C27: when `spline` returns

The theorems of `Props/Spline.lean` say what a returned spline satisfies.  Here: for which arguments it
returns.
-/

set_option linter.unusedSectionVars false

namespace Npplus

open Spec Finset PwPoly Spl

variable {K : Type} [Field K] [LinearOrder K] [IsStrictOrderedRing K] {V : Type} [AddCommGroup V] [Module K V]
  {inv : InvFun K} {S : Scipy K} {x : List K} {y : List V} {n : ℕ} {lo hi : List (Option V)}
  {extrap : Option (ℕ × ℕ)}

theorem spline_of_nonper (hs : x.Pairwise (· < ·)) (hx : 2 ≤ x.length) (hy : y.length = x.length) (hn : 1 ≤ n)
    (hlo : lo.length ≤ n - 1) (hhi : hi.length ≤ n - 1) :
    spline inv S x y n lo hi false extrap =
      (nonper inv S x y n lo hi (extrap.getD (n - 1, n - 1))).map .pw := by
  unfold spline
  simp only [bind, Except.bind, pure, Except.pure, throw, throwThe, MonadExceptOf.throw]
  rw [if_neg (by omega), if_neg (by omega), if_neg (by simp), if_neg (not_dec' hs)]
  simp only
  rw [if_neg (by omega), if_neg (by simp)]

theorem spline_of_per (hs : x.Pairwise (· < ·)) (hx : 2 ≤ x.length) (hy : y.length = x.length) (hn : 1 ≤ n) :
    spline inv S x y n [] [] true none = (Spl.periodic inv S x y n).map .per := by
  unfold spline
  simp only [bind, Except.bind, pure, Except.pure, throw, throwThe, MonadExceptOf.throw]
  rw [if_neg (by omega), if_neg (by omega), if_neg (by simp), if_neg (not_dec' hs)]
  simp only
  rw [if_neg (by simp; omega), if_pos (by simp)]

theorem bcCount_full {l : List (Option V)} {N : ℕ} (hl : l.length ≤ N) (h : bcCount l = N) :
    ∀ q < N, (bcItem l q).isSome := by
  intro q hq
  have h1 : bcCount l ≤ l.length := by unfold bcCount; exact List.length_filter_le _ _
  have hq' : q < l.length := by omega
  have hall : ∀ a ∈ l, a.isSome = true := by
    have : (l.filter Option.isSome).length = l.length := by unfold bcCount at h h1; omega
    intro a ha
    have := List.length_filter_eq_length_iff.mp this
    exact this a ha
  unfold bcItem
  rw [List.getD_eq_getElem _ _ hq']
  exact hall _ (List.getElem_mem _)

theorem bcCount_zero {l : List (Option V)} (h : bcCount l = 0) : ∀ q, bcItem l q = none := by
  intro q
  unfold bcItem
  rcases Nat.lt_or_ge q l.length with hq | hq
  · rw [List.getD_eq_getElem _ _ hq]
    unfold bcCount at h
    have := List.length_eq_zero_iff.mp h
    rw [List.filter_eq_nil_iff] at this
    have := this _ (List.getElem_mem hq)
    simpa using this
  · rw [List.getD_eq_default _ _ hq]

/-- **C24, success (1)** — all boundary conditions at one end: `spline` returns for every degree, every
strictly increasing `x` (at least two points) and all data when all the `n-1` conditions are given at `lo`, or
all at `hi`. -/
theorem C24_one_sided (hS : ScipyOK S) (hs : x.Pairwise (· < ·)) (hx : 2 ≤ x.length) (hy : y.length = x.length)
    (hn : 1 ≤ n) (hlo : lo.length ≤ n - 1) (hhi : hi.length ≤ n - 1)
    (h : (bcCount lo = n - 1 ∧ bcCount hi = 0) ∨ (bcCount lo = 0 ∧ bcCount hi = n - 1)) :
    ∃ p, spline inv S x y n lo hi false extrap = .ok (.pw p) := by
  rw [spline_of_nonper hs hx hy hn hlo hhi]
  obtain ⟨p, hp⟩ := nonper_success (inv := inv) (e := extrap.getD (n - 1, n - 1)) hS hs hx hy hn hlo hhi
    (by omega) (fun hn2 lo' hi' C z hz => by
      rcases h with h | h
      · refine hom_lo hs hz.sys (fun q hq => hz.lo0 q ?_)
        obtain ⟨v, hv⟩ := Option.isSome_iff_exists.mp (bcCount_full hlo h.1 q (by omega))
        rw [C.keep_lo q v hv]; rfl
      · refine hom_hi hn hx hz.sys (fun m hm hmn => ?_)
        obtain ⟨v, hv⟩ := Option.isSome_iff_exists.mp (bcCount_full hhi h.2 (m - 1) (by omega))
        have := hz.hi0 (m - 1) (by rw [C.keep_hi _ v hv]; rfl)
        rwa [show m - 1 + 1 = m by omega] at this)
  exact ⟨p, by rw [hp]; rfl⟩

theorem bcCount_two (l : List (Option V)) (hl : l.length ≤ 2) :
    bcCount l = (if (bcItem l 0).isSome then 1 else 0) + (if (bcItem l 1).isSome then 1 else 0) := by
  rw [bcCount_sum l 2 hl, sum_range_succ, sum_range_succ, sum_range_zero, Nat.zero_add]

/-- **C24, success (2)** — polylines, parabolas and cubics: `spline` returns for all strictly increasing `x`
and all data, for `n = 1, 2, 3`, whichever boundary conditions are given (at most `n-1`, any mixture of first
and second derivatives at the two ends). -/
theorem C24_cubic_succeeds (hS : ScipyOK S) (hs : x.Pairwise (· < ·)) (hx : 2 ≤ x.length)
    (hy : y.length = x.length) (hn : 1 ≤ n) (hn3 : n ≤ 3) (hlo : lo.length ≤ n - 1) (hhi : hi.length ≤ n - 1)
    (hc : bcCount lo + bcCount hi ≤ n - 1) :
    ∃ p, spline inv S x y n lo hi false extrap = .ok (.pw p) := by
  rw [spline_of_nonper hs hx hy hn hlo hhi]
  obtain ⟨p, hp⟩ := nonper_success (inv := inv) (e := extrap.getD (n - 1, n - 1)) hS hs hx hy hn hlo hhi
    hc (fun hn2 lo' hi' C z hz => by
      by_cases h1 : bcCount lo' = n - 1
      · exact hom_lo hs hz.sys (fun q hq => hz.lo0 q (bcCount_full C.len_lo h1 q (by omega)))
      by_cases h2 : bcCount hi' = n - 1
      · refine hom_hi hn hx hz.sys (fun m hm hmn => ?_)
        have := hz.hi0 (m - 1) (bcCount_full C.len_hi h2 (m - 1) (by omega))
        rwa [show m - 1 + 1 = m by omega] at this
      have ht := C.total
      have hn' : n = 3 := by omega
      subst hn'
      have c1 : bcCount lo' = 1 := by omega
      have c2 : bcCount hi' = 1 := by omega
      rw [bcCount_two _ C.len_lo] at c1
      rw [bcCount_two _ C.len_hi] at c2
      refine hom_cubic hs hz.sys ?_
      have e1 : sl x z 0 * ml x z 0 = 0 := by
        unfold sl ml
        rw [if_pos (by omega), if_pos (by omega)]
        by_cases a : (bcItem lo' 0).isSome
        · have := hz.lo0 0 a
          rw [Nat.zero_mul, this]; simp
        · by_cases b : (bcItem lo' 1).isSome
          · have := hz.lo0 1 b
            rw [Nat.zero_mul, Nat.zero_add, this]; simp
          · simp [a, b] at c1
      have e2 : sl x z (x.length - 1) * ml x z (x.length - 1) = 0 := by
        unfold sl ml
        rw [if_neg (by omega), if_neg (by omega), show x.length - 1 - 1 = x.length - 2 by omega]
        by_cases a : (bcItem hi' 0).isSome
        · have := hz.hi0 0 a
          rw [sum_range_succ, sum_range_succ, sum_range_succ, sum_range_zero] at this
          norm_num [Nat.choose] at this
          rw [this]; simp
        · by_cases b : (bcItem hi' 1).isSome
          · have := hz.hi0 1 b
            rw [sum_range_succ, sum_range_succ, sum_range_succ, sum_range_zero] at this
            norm_num [Nat.choose] at this
            rw [this]; simp
          · simp [a, b] at c2
      rw [e1, e2])
  exact ⟨p, by rw [hp]; rfl⟩

/-- **C27, success** — the periodic polyline and the periodic cubic spline exist for all data. -/
theorem C27_cubic_succeeds (hS : ScipyOK S) (hs : x.Pairwise (· < ·)) (hx : 2 ≤ x.length)
    (hy : y.length = x.length) (hn : n = 1 ∨ n = 3) :
    ∃ P, spline inv S x y n [] [] true none = .ok (.per P) := by
  rw [spline_of_per hs hx hy (by omega)]
  obtain ⟨p, hp⟩ := periodic_success (inv := inv) (n := n) hS hs hx hy (by omega) (fun hn2 z sys hwrap => by
    have hn' : n = 3 := by omega
    subst hn'
    refine hom_cubic hs sys ?_
    have w1 := hwrap 1 le_rfl (by omega)
    have w2 := hwrap 2 (by omega) (by omega)
    rw [sum_range_succ, sum_range_succ, sum_range_succ, sum_range_zero] at w1 w2
    norm_num [Nat.choose] at w1 w2
    have hwl := width_ne hs (show x.length - 2 + 1 < x.length by omega)
    have hw0 := width_ne hs (show 0 + 1 < x.length by omega)
    unfold sl ml
    rw [if_neg (by omega), if_neg (by omega), if_pos (by omega), if_pos (by omega),
      show x.length - 1 - 1 = x.length - 2 by omega, w1, w2, Nat.zero_mul, Nat.zero_add]
    field_simp)
  exact ⟨p, by rw [hp]; rfl⟩

end Npplus
