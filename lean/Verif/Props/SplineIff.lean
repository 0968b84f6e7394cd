import Verif.Lemmas.SplineSing
import Verif.Lemmas.SplineBern
import Verif.Props.SplineOk

/-!
# C24, C27: exactly when `spline` returns

The boundary conditions given by the caller are completed to `n-1` conditions in the way the docstring says
(C26).  Together with the data they are `x.length + n - 1` conditions for the same number of free parameters.  The
system is singular exactly when some polynomial of degree `d < n` can satisfy all the conditions which matter
for it — the `x.length` data and the conditions on its first `d` derivatives — because there are not more
than `d` of them (a Pólya condition).
-/

set_option linter.unusedSectionVars false

namespace Npplus

open Spec Finset PwPoly Spl

variable {K : Type} [Field K] [LinearOrder K] [IsStrictOrderedRing K] {V : Type} [AddCommGroup V] [Module K V]
  {inv : InvFun K} {S : Scipy K} {x : List K} {y : List V} {n : ℕ} {lo hi : List (Option V)}
  {extrap : Option (ℕ × ℕ)}

/-- Is the derivative of order `q+1` prescribed? -/
abbrev given (l : List (Option V)) (q : ℕ) : Prop := (bcItem l q).isSome = true

theorem count_given {l : List (Option V)} {N : ℕ} (hl : l.length ≤ N) : Nat.count (given l) N = bcCount l := by
  rw [bcCount_sum l N hl]
  clear hl
  induction N with
  | zero => simp
  | succ N ih => rw [Nat.count_succ, sum_range_succ, ih]

/-- Enough conditions for every degree below `n`. -/
def Polya (n N : ℕ) (lo hi : List (Option V)) : Prop :=
  ∀ d < n, d < N + Nat.count (given lo) d + Nat.count (given hi) d

theorem nonper_polya (hS : ScipyOK S) (hs : x.Pairwise (· < ·)) (hx : 2 ≤ x.length) (hy : y.length = x.length)
    (hn : 1 ≤ n) (hlo : lo.length ≤ n - 1) (hhi : hi.length ≤ n - 1) {lo' hi' : List (Option V)}
    (C : Completed n lo hi lo' hi') (hc : bcCount lo + bcCount hi ≤ n - 1) (hP : Polya n x.length lo' hi') {e : ℕ × ℕ} :
    ∃ p, nonper inv S x y n lo hi e = .ok p := by
  refine nonper_success hS hs hx hy hn hlo hhi hc fun hn2 lo2 hi2 C2 z hz => ?_
  refine hom_polya hn hx hs hz.sys (L := given lo') (H := given hi') (fun q hq hL => ?_) (fun q hq hH => ?_) ?_ hP
  · unfold aC
    rw [if_neg (by omega), Nat.zero_mul, Nat.zero_add, Nat.add_sub_cancel]
    exact hz.lo0 q (by rw [← (C26_unique C C2 q).1]; exact hL)
  · rw [bC_eq]
    exact hz.hi0 q (by rw [← (C26_unique C C2 q).2]; exact hH)
  · rw [count_given C.len_lo, count_given C.len_hi, C.total]

theorem nonper_not_polya (hS : ScipyOK S) (hs : x.Pairwise (· < ·)) (hx : 2 ≤ x.length)
    (hlo : lo.length ≤ n - 1) (hhi : hi.length ≤ n - 1) {lo' hi' : List (Option V)}
    (C : Completed n lo hi lo' hi') (hc : bcCount lo + bcCount hi ≤ n - 1) (hP : ¬ Polya n x.length lo' hi') {e : ℕ × ℕ} :
    nonper inv S x y n lo hi e = .error .linAlgError := by
  unfold Polya at hP
  push Not at hP
  obtain ⟨d, hd, hle⟩ := hP
  have hn2 : 2 ≤ n := by omega
  unfold nonper
  simp only [bind, Except.bind, pure, Except.pure]
  rw [if_neg (by omega)]
  rw [bcCount_eq, bcCount_eq] at hc
  obtain ⟨lo2, hi2, nlo, e1, e2, e3, C2⟩ := fillBC_ok hlo hhi hc
  rw [e1]
  simp only
  have htot := C2.total
  rw [bcCount_eq, bcCount_eq] at htot
  have hcl : Nat.count (given lo') d = Nat.count (given lo2) d := by
    congr 1; funext q; unfold given; rw [(C26_unique C C2 q).1]
  have hch : Nat.count (given hi') d = Nat.count (given hi2) d := by
    congr 1; funext q; unfold given; rw [(C26_unique C C2 q).2]
  obtain ⟨z, hz, i, hi0, hzi⟩ := hom_nontrivial (n := n) (lo := lo2) (hi := hi2) hx hs (by omega) hd (by
    have h1 : Nat.count (fun q => (bcItem lo2 q).isSome = true) d = Nat.count (given lo') d := hcl.symm
    have h2 : Nat.count (fun q => (bcItem hi2 q).isSome = true) d = Nat.count (given hi') d := hch.symm
    rw [h1, h2]; exact hle)
  have hns : ¬ Nonsing ((x.length - 1) * n) (bandMat (1 + nlo) (n - 1 - nlo) (system n x y lo2 hi2 nlo).1) := by
    rw [nonsing_iff_kernel]
    intro h
    exact hzi (h z (hom_solves hn2 hx e3 C2.len_hi e2.symm (by omega) hz) i hi0)
  unfold solveBanded
  simp only [ne_eq, not_true_eq_false, if_false]
  rw [if_neg (by omega), hS.banded_singular _ _ _ _ _ hns]

/-- **C24, exactly when `spline` returns** — for every degree, every strictly increasing `x`, all data and all
boundary conditions (not too many), completed as documented to `lo'`, `hi'`: `spline` returns iff for every
`d < n` there are more than `d` conditions among the `x.length` data and the conditions on the first `d`
derivatives.  Otherwise it raises LinAlgError, whatever the data. -/
theorem C24_returns_iff (hS : ScipyOK S) (hs : x.Pairwise (· < ·)) (hx : 2 ≤ x.length) (hy : y.length = x.length)
    (hn : 1 ≤ n) (hlo : lo.length ≤ n - 1) (hhi : hi.length ≤ n - 1) {lo' hi' : List (Option V)}
    (C : Completed n lo hi lo' hi') (hc : bcCount lo + bcCount hi ≤ n - 1) :
    ((∃ p, spline inv S x y n lo hi false extrap = .ok (.pw p)) ↔
      ∀ d < n, d < x.length + Nat.count (fun q => (bcItem lo' q).isSome = true) d +
        Nat.count (fun q => (bcItem hi' q).isSome = true) d) ∧
    ((¬ ∃ p, spline inv S x y n lo hi false extrap = .ok (.pw p)) →
      spline inv S x y n lo hi false extrap = .error .linAlgError) := by
  rw [spline_of_nonper hs hx hy hn hlo hhi]
  by_cases hP : Polya n x.length lo' hi'
  · obtain ⟨p, hp⟩ := nonper_polya (inv := inv) (e := extrap.getD (n - 1, n - 1)) hS hs hx hy hn hlo hhi C hc hP
    have h : ∃ q, (nonper inv S x y n lo hi (extrap.getD (n - 1, n - 1))).map SplineOut.pw = Except.ok (SplineOut.pw q) := ⟨p, by rw [hp]; rfl⟩
    exact ⟨⟨fun _ => hP, fun _ => h⟩, fun h' => absurd h h'⟩
  · rw [nonper_not_polya hS hs hx hlo hhi C hc hP]
    refine ⟨⟨?_, fun h => absurd h hP⟩, fun _ => rfl⟩
    rintro ⟨p, hp⟩
    cases hp

/-- **C24** — with at least `n` points every choice of boundary conditions works. -/
theorem C24_enough_points (hS : ScipyOK S) (hs : x.Pairwise (· < ·)) (hx : 2 ≤ x.length) (hy : y.length = x.length)
    (hn : 1 ≤ n) (hlo : lo.length ≤ n - 1) (hhi : hi.length ≤ n - 1) (hc : bcCount lo + bcCount hi ≤ n - 1)
    (hnx : n ≤ x.length) : ∃ p, spline inv S x y n lo hi false extrap = .ok (.pw p) := by
  obtain ⟨lo', hi', nlo, -, -, C⟩ := (C26_completion hlo hhi).1 hc
  exact (C24_returns_iff hS hs hx hy hn hlo hhi C hc).1.2 fun d hd => by omega

/-- The default boundary conditions of one end: the `b` highest of `a + b` derivatives are zero. -/
def topZero (V : Type) [Zero V] (a b : ℕ) : List (Option V) := List.replicate a none ++ List.replicate b (some 0)

theorem topZero_item (a b q : ℕ) : bcItem (topZero V a b) q = if a ≤ q ∧ q < a + b then some 0 else none := by
  unfold bcItem topZero
  rw [List.getD_eq_getElem?_getD, List.getElem?_append, List.length_replicate]
  split_ifs with h1 h2 h2
  · omega
  · rw [List.getElem?_replicate_of_lt h1]; rfl
  · rw [List.getElem?_replicate_of_lt (by omega)]; rfl
  · rw [List.getElem?_eq_none (by simp; omega)]; rfl

theorem topZero_count (a b : ℕ) : bcCount (topZero V a b) = b := by
  unfold bcCount topZero
  rw [List.filter_append, List.length_append]
  simp

theorem topZero_given (a b d : ℕ) (hd : d ≤ a + b) : Nat.count (given (topZero V a b)) d = d - a := by
  induction d with
  | zero => simp
  | succ d ih =>
    rw [Nat.count_succ, ih (by omega)]
    have hg : given (topZero V a b) d ↔ a ≤ d := by
      unfold given
      rw [topZero_item]
      by_cases h1 : a ≤ d
      · rw [if_pos ⟨h1, by omega⟩]; simp [h1]
      · rw [if_neg (by omega)]; simp [h1]
    by_cases h1 : a ≤ d
    · rw [if_pos (hg.2 h1)]; omega
    · rw [if_neg (fun h => h1 (hg.1 h))]; omega

/-- The default boundary conditions, `lo` before `hi`. -/
theorem default_completed (n : ℕ) :
    Completed n ([] : List (Option V)) [] (topZero V ((n - 1) / 2) (n / 2)) (topZero V (n / 2) ((n - 1) / 2)) := by
  refine ⟨by rw [topZero_count, topZero_count]; omega, by simp [topZero]; omega, by simp [topZero]; omega, ?_, ?_, ?_, ?_⟩
  · intro q v h; simp [bcItem] at h
  · intro q v h; simp [bcItem] at h
  · intro q v _ h
    rw [topZero_item] at h
    split_ifs at h with h1
    refine ⟨by simpa using h.symm, fun q' a b => ?_⟩
    rw [topZero_item, topZero_item, if_pos (by omega), if_pos (by omega)]; simp
  · intro q v _ h
    rw [topZero_item] at h
    split_ifs at h with h1
    refine ⟨by simpa using h.symm, ?_, fun q' a b => ?_⟩
    · rw [topZero_item, if_pos (by omega)]; rfl
    · rw [topZero_item, topZero_item, if_pos (by omega), if_pos (by omega)]; simp

/-- **C24, default boundary conditions** — `spline(x, y, n)` returns iff there are at least `(n+1)/2` points;
with fewer points it raises LinAlgError, whatever the data. -/
theorem C24_default_iff (hS : ScipyOK S) (hs : x.Pairwise (· < ·)) (hx : 2 ≤ x.length) (hy : y.length = x.length)
    (hn : 1 ≤ n) :
    ((n + 1) / 2 ≤ x.length → ∃ p, spline inv S x y n [] [] false extrap = .ok (.pw p)) ∧
    (x.length < (n + 1) / 2 → spline inv S x y n [] [] false extrap = .error .linAlgError) := by
  obtain ⟨h1, h2⟩ := C24_returns_iff (inv := inv) (extrap := extrap) hS hs hx hy hn (by simp) (by simp)
    (default_completed (V := V) n) (by simp [bcCount])
  have hcl : ∀ d < n, Nat.count (fun q => (bcItem (topZero V ((n - 1) / 2) (n / 2)) q).isSome = true) d = d - (n - 1) / 2 :=
    fun d hd => topZero_given _ _ _ (by omega)
  have hch : ∀ d < n, Nat.count (fun q => (bcItem (topZero V (n / 2) ((n - 1) / 2)) q).isSome = true) d = d - n / 2 :=
    fun d hd => topZero_given _ _ _ (by omega)
  constructor
  · intro h
    refine h1.2 fun d hd => ?_
    rw [hcl d hd, hch d hd]
    omega
  · intro h
    refine h2 fun hp => ?_
    have := h1.1 hp ((n - 1) / 2) (by omega)
    rw [hcl _ (by omega), hch _ (by omega)] at this
    omega

/-- The hypotheses can be met: a quintic through three points with default conditions. -/
example {S : Scipy ℚ} (hS : ScipyOK S) {inv : InvFun ℚ} (a b c : ℚ) :
    ∃ p, spline (V := ℚ) inv S [0, 1, 3] [a, b, c] 5 = .ok (.pw p) :=
  (C24_default_iff hS (by decide +kernel) (by simp) (by simp) (by omega)).1 (by decide)

/-- A quintic through two points with default conditions: never. -/
example {S : Scipy ℚ} (hS : ScipyOK S) {inv : InvFun ℚ} (a b : ℚ) :
    spline (V := ℚ) inv S [0, 1] [a, b] 5 = .error .linAlgError :=
  (C24_default_iff hS (by decide +kernel) (by simp) (by simp) (by omega)).2 (by decide)

/-- Degree 7 with the first and the third derivative at `lo`, the second at `hi` and default conditions: the
completed conditions are of order 1, 3, 5, 6 at `lo` and 2, 6 at `hi`; two points are enough. -/
example {S : Scipy ℚ} (hS : ScipyOK S) {inv : InvFun ℚ} (a b u v w : ℚ) :
    ∃ p, spline (V := ℚ) inv S [0, 1] [a, b] 7 [some u, none, some v] [none, some w] = .ok (.pw p) := by
  have C : Completed 7 [some u, none, some v] [none, some w]
      [some u, none, some v, none, some 0, some 0] [none, some w, none, none, none, some 0] := by
    obtain ⟨lo', hi', nlo, e, -, C⟩ := (C26_completion (n := 7) (lo := [some u, none, some v]) (hi := [none, some w])
      (by simp) (by simp)).1 (by simp [bcCount])
    have e' : Spl.fillBC 7 [some u, none, some v] [none, some w] = .ok ([some u, none, some v, none, some 0, some 0],
      [none, some w, none, none, none, some 0], 4) := rfl
    rw [e'] at e
    cases e
    exact C
  exact (C24_returns_iff hS (by decide +kernel) (by simp) (by simp) (by omega) (by simp) (by simp) C (by simp [bcCount])).1.2
    fun d hd => by interval_cases d <;> simp [Nat.count_succ, bcItem]

/-! ### periodic -/

/-- Solutions of the homogeneous periodic problem solve the cyclic system. -/
theorem cyclic_solves (hn : 2 ≤ n) (hx : 2 ≤ x.length) {z : ℕ → K} (h : Sys n x ([] : List K) z) (hw : Wrap n x z) :
    Solves ((x.length - 1) * n) (cyclicMat ((x.length - 1) * n) 1 (n - 1) (baseAB n (x.length - 1) (width x))) z
      (fun _ => 0) := by
  set nk1 := x.length - 1 with hnk1
  have hN : 0 < nk1 * n := Nat.mul_pos (by omega) (by omega)
  have hle : 1 + (n - 1) ≤ nk1 * n := by
    have := Nat.le_mul_of_pos_left n (show 0 < nk1 by omega); omega
  intro i hi
  rw [cyclic_row 1 (n - 1) (nk1 * n) hN hle, show 1 + (n - 1) + 1 = n + 1 by omega]
  obtain ⟨j, q, hj, hq, rfl⟩ := block_cases hi
  rcases Nat.eq_zero_or_pos q with h0 | h0
  · subst h0
    simp only [Nat.add_zero]
    rw [cyc_val hn (width x) z hj]
    exact h.val0 hj
  · rw [cyc_cont (width x) z hj h0 hq, sub_eq_zero]
    rcases Nat.lt_or_ge (j + 1) nk1 with h1 | h1
    · rw [Nat.mod_eq_of_lt h1]; exact h.cont j h1 q h0 hq
    · rw [show j + 1 = nk1 by omega, Nat.mod_self, Nat.zero_mul, Nat.zero_add, show j = x.length - 2 by omega]
      exact hw q h0 hq

/-- **C27, exactly when a periodic spline exists** — for every degree `n`, every strictly increasing `x` and all
data: `spline(x, y, n, per=True)` returns iff the degree is odd or the number of intervals is odd.  A periodic spline of
even degree over an even number of intervals raises LinAlgError, whatever the data. -/
theorem C27_returns_iff (hS : ScipyOK S) (hs : x.Pairwise (· < ·)) (hx : 2 ≤ x.length) (hy : y.length = x.length)
    (hn : 1 ≤ n) :
    (Odd n ∨ Odd (x.length - 1) → ∃ P, spline inv S x y n [] [] true none = .ok (.per P)) ∧
    (Even n → Even (x.length - 1) → spline inv S x y n [] [] true none = .error .linAlgError) := by
  rw [spline_of_per hs hx hy hn]
  constructor
  · intro h
    obtain ⟨p, hp⟩ := periodic_success (inv := inv) (n := n) hS hs hx hy hn (fun hn2 z sys hwrap => by
      rcases h with h | h
      · refine cyc_degree ?_ h hx hs sys hwrap
        obtain ⟨r, hr⟩ := h
        omega
      · exact cyc_odd hn hx hs sys hwrap h)
    exact ⟨p, by rw [hp]; rfl⟩
  · intro h1 h2
    have hn2 : 2 ≤ n := by obtain ⟨r, hr⟩ := h1; omega
    obtain ⟨z, sys, hw, i, hi, hz⟩ := cyc_nontrivial (n := n) (x := x) h1 (by omega) hx hs h2
    have hns : ¬ Nonsing ((x.length - 1) * n)
        (cyclicMat ((x.length - 1) * n) 1 (n - 1) (baseAB n (x.length - 1) (width x))) := by
      rw [nonsing_iff_kernel]
      intro h
      exact hz (h z (cyclic_solves hn2 hx sys hw) i hi)
    unfold Spl.periodic
    simp only [bind, Except.bind, pure, Except.pure]
    rw [if_neg (by omega)]
    have hN : (x.length - 1) * n ≠ 0 := (Nat.mul_pos (by omega) (by omega)).ne'
    have hle : 1 + (n - 1) ≤ (x.length - 1) * n := by
      have := Nat.le_mul_of_pos_left n (show 0 < x.length - 1 by omega); omega
    have := C37_singular_error hS (l := 1) (u := n - 1)
      (ab := ⟨n + 1, (x.length - 1) * n, baseAB n (x.length - 1) (width x)⟩)
      (baseB n (y.set (y.length - 1) (y.getD 0 0))) hN hle
      (by change n + 1 = 1 + (n - 1) + 1; omega) hns
    simp only at this
    rw [this]
    rfl

/-- The hypotheses can be met: the quintic periodic spline with three intervals exists, a parabolic one with two
intervals never does. -/
example {S : Scipy ℚ} (hS : ScipyOK S) {inv : InvFun ℚ} (a b c d : ℚ) :
    (∃ P, spline (V := ℚ) inv S [0, 1, 3, 4] [a, b, c, d] 5 [] [] true none = .ok (.per P)) ∧
    spline (V := ℚ) inv S [0, 1, 3] [a, b, c] 2 [] [] true none = .error .linAlgError :=
  ⟨(C27_returns_iff hS (by decide +kernel) (by simp) (by simp) (by omega)).1 (.inl (by decide)),
    (C27_returns_iff hS (by decide +kernel) (by simp) (by simp) (by omega)).2 (by decide) (by decide)⟩

end Npplus
