import Verif.Lemmas.Hermite
import Verif.Props.PwArith
import Verif.Props.PwCore

/-!
# Properties of the PwPoly constructor and of `reknot` (C05, C06, C07, C08, C13)

`inv` stands for `numpy.linalg.inv`; the theorems hold for every function that inverts invertible
matrices (`InvOK`).
-/

set_option linter.unusedSectionVars false
namespace Npplus
open Spec PwPoly

variable {K : Type} [Field K] [LinearOrder K] [IsStrictOrderedRing K]
variable {V : Type} [AddCommGroup V] [Module K V]

/-- A computable inverse, for the examples: adjugate over determinant. -/
def adjInv (K : Type) [Field K] : InvFun K := fun _ A => (A.det)⁻¹ • A.adjugate

theorem adjInv_ok : InvOK (adjInv K) := by
  intro m A hA
  have h : A.det ≠ 0 := isUnit_iff_ne_zero.mp hA
  constructor
  · rw [adjInv, Matrix.mul_smul, Matrix.mul_adjugate, smul_smul, inv_mul_cancel₀ h, one_smul]
  · rw [adjInv, Matrix.smul_mul, Matrix.adjugate_mul, smul_smul, inv_mul_cancel₀ h, one_smul]

/-! ### what `init` does on regular input -/

theorem not_dec {xk : List K} (hs : xk.Pairwise (· < ·)) :
    ¬ (1 < xk.length ∧ xk.getD (xk.length - 1) 0 < xk.getD 0 0) := by
  rintro ⟨h1, h2⟩
  rw [List.getD_eq_getElem _ _ (by omega), List.getD_eq_getElem _ _ (by omega)] at h2
  exact absurd h2 (not_lt.mpr (List.pairwise_iff_getElem.mp hs 0 (xk.length - 1) (by omega) (by omega)
    (by omega)).le)

theorem not_ragged {m : ℕ} {args : List (List V)} (hl : ∀ r ∈ args, r.length = m) : ¬ Ragged args := by
  rintro ⟨r, hr, h⟩
  cases args with
  | nil => simp at hr
  | cons a t => exact h (by rw [hl r hr]; exact (hl a (by simp)).symm)

theorem head_length {m : ℕ} {args : List (List V)} (ha : args ≠ []) (hl : ∀ r ∈ args, r.length = m) :
    (args.headD []).length = m := by
  cases args with
  | nil => exact absurd rfl ha
  | cons a t => exact hl a (by simp)

theorem initBody_eq (inv : InvFun K) {xk : List K} (hx : 2 ≤ xk.length)
    {args : List (List V)} (ha : args ≠ []) (hl : ∀ r ∈ args, r.length = xk.length) (z : Option (List V)) :
    initBody inv xk args z = .ok (initPieces inv xk args z) := by
  have hxn : xk ≠ [] := by rintro rfl; simp at hx
  have hh := head_length ha hl
  have hhn : args.headD [] ≠ [] := by intro h; rw [h] at hh; simp at hh; omega
  unfold initBody
  rw [if_neg (not_ragged hl), if_neg (by tauto), if_neg (by omega), if_neg (by omega), if_neg (by omega)]

/-- Odd degree input. -/
theorem init_odd (inv : InvFun K) {xk : List K} (hs : xk.Pairwise (· < ·)) (hx : 2 ≤ xk.length)
    {args : List (List V)} (ha : args ≠ []) (hl : ∀ r ∈ args, r.length = xk.length) :
    init inv xk args = .ok (initPieces inv xk args none) := by
  unfold init initInc
  have hz := hl _ (List.getLast_mem ha)
  rw [if_neg (not_dec hs), List.getLast?_eq_some_getLast ha]
  simp only
  rw [if_neg (by omega), initBody_eq inv hx ha hl]

/-- Even degree input. -/
theorem init_even (inv : InvFun K) {xk : List K} (hs : xk.Pairwise (· < ·)) (hx : 2 ≤ xk.length)
    {args : List (List V)} (ha : args ≠ []) (hl : ∀ r ∈ args, r.length = xk.length)
    {z : List V} (hz : z.length + 1 = xk.length) :
    init inv xk (args ++ [z]) = .ok (initPieces inv xk args (some z)) := by
  unfold init initInc
  rw [if_neg (not_dec hs), List.getLast?_append, List.getLast?_singleton, Option.some_or]
  simp only
  rw [if_pos hz, List.dropLast_concat, if_neg ha, initBody_eq inv hx ha hl]

/-! ### C05 -/

/-- **C05** — for every `h ≥ 0`, every strictly increasing `xk` of at least two knots and `h+1` data
arrays of the knots' length, `PwPoly(xk, y, y', …)` succeeds; the result has the given knots and degree
`2h+1`, and at every knot `j` the derivatives of order `0..h` of both pieces meeting there are the
given ones.  (The arguments are derivatives, not Taylor coefficients as the docstring says:
`C05_docstring_refuted`.) -/
theorem C05_hermite {inv : InvFun K} (hinv : InvOK inv) {xk : List K} (hs : xk.Pairwise (· < ·))
    (hx : 2 ≤ xk.length) {args : List (List V)} (ha : args ≠ [])
    (hl : ∀ r ∈ args, r.length = xk.length) :
    ∃ p, init inv xk args = .ok p ∧ WF p ∧ p.xk = xk ∧ p.n = 2 * args.length ∧
      ∀ j < xk.length, ∀ k < args.length,
        pieceDeriv p j (xk.getD j 0) k = (args.getD k []).getD j 0 ∧
        pieceDeriv p (j + 1) (xk.getD j 0) k = (args.getD k []).getD j 0 := by
  have hal : 1 ≤ args.length := List.length_pos_iff.mpr ha
  refine ⟨_, init_odd inv hs hx ha hl, initPieces_WF hinv hs hx args ha none, rfl, ?_, ?_⟩
  · simp [initPieces]; omega
  · intro j hj k hk
    exact initPieces_knot hinv hs hx args ha none j hj k hk

/-- **C05**, what evaluation returns at the knots: `p(xk, h)` gives back the data. -/
theorem C05_eval_at_knots {inv : InvFun K} (hinv : InvOK inv) {xk : List K} (hs : xk.Pairwise (· < ·))
    (hx : 2 ≤ xk.length) {args : List (List V)} (ha : args ≠ [])
    (hl : ∀ r ∈ args, r.length = xk.length) {p : PwPoly K V} (hp : init inv xk args = .ok p) :
    ∀ j (hj : j < xk.length), p.callN xk[j] (args.length - 1) = args.map (fun r => r.getD j 0) := by
  intro j hj
  obtain ⟨q, hq, hwf, hxk, hn, hd⟩ := C05_hermite hinv hs hx ha hl
  rw [hp] at hq; cases hq
  have hal : 1 ≤ args.length := List.length_pos_iff.mpr ha
  have hin : InPiece p.xk j xk[j] := by rw [hxk]; exact inPiece_knot hs hj
  obtain ⟨h1, h2⟩ := ((C04_call_partial hwf xk[j]).2 j hin).2 (args.length - 1) (Or.inl (by omega))
  apply List.ext_getElem
  · rw [h1]; simp; omega
  · intro k hk1 hk2
    rw [← List.getD_eq_getElem _ 0 hk1, h2 k (by omega)]
    have := (hd j hj k (by simpa using hk2)).1
    rw [List.getD_eq_getElem _ _ hj] at this
    rw [this, List.getElem_map]
    congr 1
    rw [List.getD_eq_getElem]

/-- **C05**, locality: two constructor calls (with possibly different numbers of knots) whose knots and
data agree at both ends of an interval — interval `i` of one, interval `i'` of the other — produce the
same polynomial in that interval. -/
theorem C05_local {inv : InvFun K} {xk xk' : List K} (hs : xk.Pairwise (· < ·))
    (hs' : xk'.Pairwise (· < ·)) {args args' : List (List V)} (ha : args ≠ [])
    (hlen : args.length = args'.length)
    (hl : ∀ r ∈ args, r.length = xk.length) (hl' : ∀ r ∈ args', r.length = xk'.length)
    {p p' : PwPoly K V} (hp : init inv xk args = .ok p) (hp' : init inv xk' args' = .ok p')
    {i i' : ℕ} (hi : i + 1 < xk.length) (hi' : i' + 1 < xk'.length)
    (hx0 : xk.getD i 0 = xk'.getD i' 0) (hx1 : xk.getD (i + 1) 0 = xk'.getD (i' + 1) 0)
    (hd0 : ∀ k, (args.getD k []).getD i 0 = (args'.getD k []).getD i' 0)
    (hd1 : ∀ k, (args.getD k []).getD (i + 1) 0 = (args'.getD k []).getD (i' + 1) 0) :
    piece p (i + 1) = piece p' (i' + 1) ∧ ∀ x, pieceVal p (i + 1) x = pieceVal p' (i' + 1) x := by
  have ha' : args' ≠ [] := by rintro rfl; simp at hlen; exact ha hlen
  rw [init_odd inv hs (by omega) ha hl] at hp
  rw [init_odd inv hs' (by omega) ha' hl'] at hp'
  cases hp; cases hp'
  have hc : ∀ (i i' : ℕ), (∀ k, (args.getD k []).getD i 0 = (args'.getD k []).getD i' 0) →
      col (divFact K args) i = col (divFact K args') i' := by
    intro i i' h
    apply List.ext_getElem (by simp [hlen])
    intro k hk1 hk2
    rw [← List.getD_eq_getElem _ 0 hk1, ← List.getD_eq_getElem _ 0 hk2, col_divFact, col_divFact, h]
  have key : piece (initPieces inv xk args none) (i + 1) = piece (initPieces inv xk' args' none) (i' + 1) := by
    rw [initPieces_inner _ _ _ _ (by omega) _ hi, initPieces_inner _ _ _ _ (by omega) _ hi', hx0, hx1,
      hc i i' hd0, hc _ _ hd1, hlen]
    rfl
  refine ⟨key, fun x => ?_⟩
  unfold pieceVal
  rw [key]
  have : origin (initPieces inv xk args none).xk (i + 1) =
      origin (initPieces inv xk' args' none).xk (i' + 1) := by
    simpa [origin, initPieces] using hx0
  rw [this]

/-- Non-trivial instance: a piecewise cubic through (0,1), (1,0), (3,2). -/
def exC : Except PyErr (PwPoly ℚ ℚ) := init (adjInv ℚ) [0, 1, 3] [[1, 0, 2], [0, 1, -1]]

example : exC = .ok ⟨[0, 1, 3], 4, [[1, 0, 0, 0], [1, 0, -4, 3], [0, 1, 1, -1/2], [2, -1, 0, 0]]⟩ := by
  decide +kernel

/-- The docstring (pwpoly.py:93-96) says that the arguments are Taylor coefficients (the `n`-th
derivative divided by `n!`): with a second derivative array that is false. -/
theorem C05_docstring_refuted : ∃ p, init (adjInv ℚ) [0, 1] [[0, 0], [0, 0], [1, 1]] =
      (.ok p : Except PyErr (PwPoly ℚ ℚ)) ∧
    taylorCoeff (piece p 1) (0:ℚ) 2 ≠ (1:ℚ) ∧ taylorCoeff (piece p 1) (0:ℚ) 2 = 1/2 := by
  refine ⟨⟨[0, 1], 6, [[0, 0, 1/2, 0, 0, 0], [0, 0, 1/2, -1, 1/2, 0], [0, 0, 1/2, 0, 0, 0]]⟩,
    by decide +kernel, ?_⟩
  have : taylorCoeff (piece (⟨[0, 1], 6, [[0, 0, 1/2, 0, 0, 0], [0, 0, 1/2, -1, 1/2, 0],
      [0, 0, 1/2, 0, 0, 0]]⟩ : PwPoly ℚ ℚ) 1) (0:ℚ) 2 = 1/2 := by
    rw [taylorCoeff_at_zero]; rfl
  rw [this]; norm_num

/-! ### C06 -/

theorem polyVal_replicate_append (l : List V) (m : ℕ) (x : K) :
    polyVal (l ++ List.replicate m 0) x = polyVal l x := by
  rw [polyVal_append, polyVal_replicate_zero, smul_zero, add_zero]

theorem polyVal_col (args : List (List V)) (i : ℕ) (t : K) :
    polyVal (col (divFact K args) i) t =
      ∑ k ∈ Finset.range args.length, (t ^ k / (Nat.factorial k : K)) • (args.getD k []).getD i 0 := by
  unfold polyVal
  rw [length_col, length_divFact]
  refine Finset.sum_congr rfl fun k _ => ?_
  rw [col_divFact, smul_smul, mul_one_div]

/-- **C06** — outside the end knots a PwPoly built from knot data (odd or even degree) is the
degree-`h` Taylor polynomial of the data at the end knot. -/
theorem C06_extrapolation {inv : InvFun K} (hinv : InvOK inv) {xk : List K} (hs : xk.Pairwise (· < ·))
    (hx : 2 ≤ xk.length) {args : List (List V)} (ha : args ≠ [])
    (hl : ∀ r ∈ args, r.length = xk.length) (z : Option (List V))
    (hz : ∀ r, z = some r → r.length + 1 = xk.length)
    {p : PwPoly K V} (hp : init inv xk (args ++ z.toList) = .ok p) (x : K) :
    ((∀ a ∈ xk, x ≤ a) → p.call x =
      ∑ k ∈ Finset.range args.length,
        ((x - xk.getD 0 0) ^ k / (Nat.factorial k : K)) • (args.getD k []).getD 0 0) ∧
    ((∀ a ∈ xk, a ≤ x) → p.call x =
      ∑ k ∈ Finset.range args.length,
        ((x - xk.getD (xk.length - 1) 0) ^ k / (Nat.factorial k : K)) •
          (args.getD k []).getD (xk.length - 1) 0) := by
  have hpe : p = initPieces inv xk args z := by
    cases z with
    | none =>
      simp only [Option.toList_none, List.append_nil] at hp
      rw [init_odd inv hs hx ha hl] at hp; cases hp; rfl
    | some r =>
      simp only [Option.toList_some] at hp
      rw [init_even inv hs hx ha hl (hz r rfl)] at hp; cases hp; rfl
  have hwf := initPieces_WF hinv hs hx args ha z
  have hxe : (initPieces inv xk args z).xk = xk := rfl
  rw [hpe]
  constructor
  · intro h
    have hin : InPiece (initPieces inv xk args z).xk 0 x :=
      ⟨by omega, fun j _ h0 => by omega, fun j hj _ => h _ (List.getElem_mem hj)⟩
    rw [((C04_call_partial hwf x).2 0 hin).1, pieceVal, initPieces_lo, polyVal_replicate_append,
      polyVal_col]
    rfl
  · intro h
    by_cases hlast : xk.getD (xk.length - 1) 0 < x
    · have hin : InPiece (initPieces inv xk args z).xk xk.length x := by
        refine ⟨le_rfl, fun j hj _ => ?_, fun j hj h0 => ?_⟩
        · refine lt_of_le_of_lt ?_ hlast
          rw [List.getD_eq_getElem _ _ (by omega)]
          rcases Nat.eq_or_lt_of_le (show j ≤ xk.length - 1 by rw [hxe] at hj; omega) with e | e
          · simp [e, hxe]
          · exact (List.pairwise_iff_getElem.mp hs j _ _ _ e).le
        · rw [hxe] at hj; omega
      rw [((C04_call_partial hwf x).2 _ hin).1, pieceVal, initPieces_hi _ _ _ _ hx,
        polyVal_replicate_append, polyVal_col]
      rfl
    · have hxx : x = xk.getD (xk.length - 1) 0 := by
        apply le_antisymm (not_lt.mp hlast)
        rw [List.getD_eq_getElem _ _ (by omega)]
        exact h _ (List.getElem_mem _)
      have hin : InPiece (initPieces inv xk args z).xk (xk.length - 1) x := by
        rw [hxx, List.getD_eq_getElem _ _ (by omega)]; exact inPiece_knot hs (by omega)
      have hk := (initPieces_knot hinv hs hx args ha z (xk.length - 1) (by omega) 0
        (List.length_pos_iff.mpr ha)).1
      rw [((C04_call_partial hwf x).2 _ hin).1, hxx, pieceVal, ← polyDeriv_zero]
      rw [pieceDeriv] at hk
      rw [hk, Finset.sum_eq_single 0]
      · simp
      · intro k _ hk; simp [hk]
      · intro h; simp at h; exact absurd h ha

/-- Non-trivial instance: `exC` at -2 and 5. -/
example : (exC.toOption.map fun p => (p.call (-2), p.call 5)) = some (1, 0) := by decide +kernel

/-! ### C07 -/

/-- **C07** — strictly decreasing knots: the same result as with the reversed arrays (all the data of
the same length). -/
theorem C07_decreasing_partial (inv : InvFun K) {xk : List K} (hs : xk.Pairwise (· > ·))
    (hx : 2 ≤ xk.length) {args : List (List V)} (m : ℕ) (hl : ∀ r ∈ args, r.length = m) :
    init inv xk args = init inv xk.reverse (args.map List.reverse) := by
  have hdec : 1 < xk.length ∧ xk.getD (xk.length - 1) 0 < xk.getD 0 0 := by
    refine ⟨by omega, ?_⟩
    rw [List.getD_eq_getElem _ _ (by omega), List.getD_eq_getElem _ _ (by omega)]
    exact List.pairwise_iff_getElem.mp hs 0 (xk.length - 1) (by omega) (by omega) (by omega)
  have hinc : xk.reverse.Pairwise (· < ·) := List.pairwise_reverse.mpr hs
  unfold init
  rw [if_pos hdec, if_neg (not_ragged hl), if_neg (not_dec hinc)]

/-- **C07** is false for even degree, for all such input: arrays of different lengths with decreasing
knots are an error. -/
theorem C07_ragged_fails (inv : InvFun K) {xk : List K} (hs : xk.Pairwise (· > ·)) (hx : 2 ≤ xk.length)
    {args : List (List V)} {r s : List V} (hr : r ∈ args) (hsr : s ∈ args) (hne : r.length ≠ s.length) :
    init inv xk args = .error .valueError := by
  have hdec : 1 < xk.length ∧ xk.getD (xk.length - 1) 0 < xk.getD 0 0 := by
    refine ⟨by omega, ?_⟩
    rw [List.getD_eq_getElem _ _ (by omega), List.getD_eq_getElem _ _ (by omega)]
    exact List.pairwise_iff_getElem.mp hs 0 (xk.length - 1) (by omega) (by omega) (by omega)
  have : Ragged args := by
    by_contra h
    simp only [Ragged, not_exists, not_and, not_not] at h
    exact hne ((h r hr).trans (h s hsr).symm)
  unfold init
  rw [if_pos hdec, if_pos this]

/-- **C07** is false for even degree: the arrays have different lengths and the reversal
`asarray(args)[..., ::-1]` fails (ValueError for a ragged tuple), although the reversed call
succeeds.  So the theorem above is only part of the property. -/
theorem C07_even_refuted :
    init (adjInv ℚ) [1, 0] [[0, 0], [1]] = (.error .valueError : Except PyErr (PwPoly ℚ ℚ)) ∧
    ∃ p, init (adjInv ℚ) [0, 1] [[0, 0], [1]] = (.ok p : Except PyErr (PwPoly ℚ ℚ)) := by
  refine ⟨by decide +kernel, ?_⟩
  exact ⟨⟨[0, 1], 3, [[0, 0, 0], [0, -1, 1], [0, 0, 0]]⟩, by decide +kernel⟩

example : init (adjInv ℚ) [3, 1, 0] [[2, 0, 1], [-1, 1, 0]] = exC := by decide +kernel

theorem initInc_rejects (inv : InvFun K) {xk : List K} (hx : xk ≠ []) {args : List (List V)} (ha : args ≠ []) {m : ℕ} (hm : 0 < m)
    (hl : ∀ r ∈ args, r.length = m)
    (hbad : (m ≠ xk.length ∧ m ≠ xk.length + 1 ∧ (m + 1 ≠ xk.length ∨ 2 ≤ args.length)) ∨ (xk.length = 1 ∧ m = 1)) :
    initInc inv xk args = .error .typeError := by
  have body : ∀ (L : List (List V)) z, L ≠ [] → (∀ r ∈ L, r.length = m) → (m ≠ xk.length ∧ m ≠ xk.length + 1 ∨ xk.length = 1 ∧ m = 1) →
      initBody inv xk L z = .error .typeError := by
    intro L z hL hLl hb
    rcases L with _ | ⟨a, L⟩
    · exact absurd rfl hL
    have hal : a.length = m := hLl a (by simp)
    have hane : a ≠ [] := by rintro rfl; simp at hal; omega
    unfold initBody
    simp only [List.headD_cons, hal]
    rw [if_neg (not_ragged hLl), if_neg (by push Not; exact ⟨hx, hane⟩)]
    rcases hb with ⟨h1, h2⟩ | ⟨h1, h2⟩
    · rw [if_neg h2, if_pos h1]
    · rw [if_neg (by omega), if_neg (by omega), if_pos (by omega)]
  unfold initInc
  rw [List.getLast?_eq_some_getLast ha]
  have hz : (args.getLast ha).length = m := hl _ (List.getLast_mem ha)
  simp only [hz]
  by_cases h1 : m + 1 = xk.length
  · have h2 : 2 ≤ args.length := by
      rcases hbad with ⟨_, _, h | h⟩ | h
      · exact absurd h1 h
      · exact h
      · omega
    have hd : args.dropLast ≠ [] := by
      rw [← List.length_pos_iff, List.length_dropLast]; omega
    rw [if_pos h1, if_neg hd]
    exact body _ _ hd (fun r hr => hl r (List.dropLast_subset _ hr)) (.inl (by omega))
  · rw [if_neg h1]
    exact body _ _ ha hl (by rcases hbad with h | h; exacts [.inl ⟨h.1, h.2.1⟩, .inr h])

/-- **C05**, what the constructor refuses with TypeError, whatever the order of the knots: arrays whose size is neither that of the
knots, nor one more (coefficients), nor one less (a single array, a histogram); and a single knot with a single value. -/
theorem C05_rejects (inv : InvFun K) {xk : List K} (hx : xk ≠ []) {args : List (List V)} (ha : args ≠ []) {m : ℕ} (hm : 0 < m)
    (hl : ∀ r ∈ args, r.length = m)
    (hbad : (m ≠ xk.length ∧ m ≠ xk.length + 1 ∧ (m + 1 ≠ xk.length ∨ 2 ≤ args.length)) ∨ (xk.length = 1 ∧ m = 1)) :
    init inv xk args = .error .typeError := by
  unfold init
  by_cases hd : 1 < xk.length ∧ xk.getD (xk.length - 1) 0 < xk.getD 0 0
  · rw [if_pos hd, if_neg (not_ragged hl)]
    refine initInc_rejects inv (by simpa using hx) (by simpa using ha) hm (fun r hr => ?_) (by simpa using hbad)
    obtain ⟨r', hr', rfl⟩ := List.mem_map.1 hr
    rw [List.length_reverse, hl r' hr']
  · rw [if_neg hd]
    exact initInc_rejects inv hx ha hm hl hbad

/-- Three knots and two arrays of five numbers; one knot and one number. -/
example : init (adjInv ℚ) [0, 1, 3] [[0, 1, 2, 3, 4], [0, 1, 2, 3, 4]] = (.error .typeError : Except PyErr (PwPoly ℚ ℚ)) ∧
    init (adjInv ℚ) [0] [[7]] = (.error .typeError : Except PyErr (PwPoly ℚ ℚ)) :=
  ⟨C05_rejects _ (by simp) (by simp) (m := 5) (by norm_num) (by simp) (.inl (by simp)),
    C05_rejects _ (by simp) (by simp) (m := 1) (by norm_num) (by simp) (.inr (by simp))⟩

/-! ### C08 -/

/-- **C08**, histograms with one value more than knots: the value in piece `i` is `y[i]`. -/
theorem C08_histogram_more (inv : InvFun K) {xk : List K} (hs : xk.Pairwise (· < ·)) (hx : xk ≠ [])
    {y : List V} (hy : y.length = xk.length + 1) :
    ∃ p, init inv xk [y] = .ok p ∧ WF p ∧ p.xk = xk ∧ p.n = 1 ∧
      ∀ i x, InPiece xk i x → p.call x = y.getD i 0 := by
  have hd := not_dec hs
  have hyn : y ≠ [] := by rintro rfl; simp at hy
  have e1 : ¬ (y.length + 1 = xk.length) := by omega
  have hok : init inv xk [y] = .ok ⟨xk, 1, (List.range (xk.length + 1)).map (col [y])⟩ := by
    unfold init initInc initBody
    rw [if_neg hd]
    simp only [List.getLast?_singleton]
    rw [if_neg e1, if_neg (not_ragged (m := y.length) (by simp)), if_neg (by simp [hx, hyn]),
      if_pos (by simpa using hy)]
    rfl
  have hwf : WF (⟨xk, 1, (List.range (xk.length + 1)).map (col [y])⟩ : PwPoly K V) :=
    ⟨hx, hs, by simp, le_rfl, by simp⟩
  refine ⟨_, hok, hwf, rfl, rfl, fun i x hi => ?_⟩
  rw [((C04_call_partial hwf x).2 i hi).1, pieceVal, piece]
  rw [List.getD_eq_getElem _ _ (by simp; exact hi.1)]
  simp [col, polyVal]

/-- **C08**, histograms with one value less than knots: `y[i]` between knots `i` and `i+1`
(right end included), 0 outside. -/
theorem C08_histogram_less (inv : InvFun K) {xk : List K} (hs : xk.Pairwise (· < ·))
    {y : List V} (hyn : y ≠ []) (hy : y.length + 1 = xk.length) :
    ∃ p, init inv xk [y] = .ok p ∧ WF p ∧ p.xk = xk ∧ p.n = 1 ∧
      ∀ i x, InPiece xk i x → p.call x = if 1 ≤ i ∧ i < xk.length then y.getD (i - 1) 0 else 0 := by
  have hd := not_dec hs
  have hx : xk ≠ [] := by rintro rfl; simp at hy
  obtain ⟨p, hp, hwf, h1, h2, h3⟩ := C08_histogram_more inv hs hx (y := [0] ++ y ++ [0]) (by simp; omega)
  refine ⟨p, ?_, hwf, h1, h2, fun i x hi => ?_⟩
  · rw [← hp]
    have e1 : ¬ (([0] ++ y ++ [0]).length + 1 = xk.length) := by simp; omega
    unfold init initInc
    rw [if_neg hd, if_neg hd]
    simp only [List.getLast?_singleton]
    rw [if_pos hy, if_neg e1, if_pos (by simp)]
    have : histRow y = [0] ++ y ++ [0] := by cases y <;> simp_all [histRow]
    rw [this]
  · rw [h3 i x hi]
    have hil := hi.1
    by_cases h : 1 ≤ i ∧ i < xk.length
    · rw [if_pos h, List.getD_append _ _ _ _ (by simp; omega), List.getD_append_right _ _ _ _ (by simp; omega)]
      rfl
    · rw [if_neg h]
      rcases Nat.eq_zero_or_pos i with h0 | h0
      · subst h0; rfl
      · have : i = xk.length := by omega
        rw [List.getD_append_right _ _ _ _ (by simp; omega)]
        simp [this, ← hy]

example : (init (adjInv ℚ) [0, 1, 3] [[5, 7]]).toOption.map (fun p : PwPoly ℚ ℚ =>
    (p.call (-1), p.call 1, p.call 2, p.call 4)) = some (0, 5, 7, 0) := by decide +kernel

/-- **C08**, one knot and no value is refused (IndexError), whatever the knot. -/
theorem C08_single_knot_error (inv : InvFun K) (x : K) : init inv [x] [([] : List V)] = .error .indexError := by
  simp [init, initInc, initBody, histRow, Ragged]

/-- **C08**, even degrees, what is true: with `N = h+1 ≥ 1` arrays of the knots' length and one shorter
array `z` the result has degree `2N`, has the given values and derivatives `0..N-1` at all the knots
from both sides, and the coefficient of order `2N` in interval `i` is `z[i] / ((h+1)(h+2)…(2h))`.
The property also asks for that coefficient to be `z[i]` (the docstring) — true only for `h = 0`, see
`C08_even_parabola` and `C08_even_refuted`. -/
theorem C08_even_partial {inv : InvFun K} (hinv : InvOK inv) {xk : List K} (hs : xk.Pairwise (· < ·))
    (hx : 2 ≤ xk.length) {args : List (List V)} (ha : args ≠ [])
    (hl : ∀ r ∈ args, r.length = xk.length) {z : List V} (hz : z.length + 1 = xk.length) :
    ∃ p, init inv xk (args ++ [z]) = .ok p ∧ WF p ∧ p.xk = xk ∧ p.n = 2 * args.length + 1 ∧
      (∀ j < xk.length, ∀ k < args.length,
        pieceDeriv p j (xk.getD j 0) k = (args.getD k []).getD j 0 ∧
        pieceDeriv p (j + 1) (xk.getD j 0) k = (args.getD k []).getD j 0) ∧
      ∀ i, i + 1 < xk.length → ∀ x, pieceDeriv p (i + 1) x (2 * args.length) =
        ((Nat.factorial (2 * args.length) : K) /
          ((List.range (args.length - 1)).map (fun m => args.length + m)).prod) • z.getD i 0 := by
  have hal : 1 ≤ args.length := List.length_pos_iff.mpr ha
  have hwf := initPieces_WF hinv hs hx args ha (some z)
  refine ⟨_, init_even inv hs hx ha hl hz, hwf, rfl, ?_, ?_, ?_⟩
  · simp [initPieces]; omega
  · intro j hj k hk
    exact initPieces_knot hinv hs hx args ha _ j hj k hk
  · intro i hi x
    have hgap : xk.getD (i + 1) 0 - xk.getD i 0 ≠ 0 := by
      rw [List.getD_eq_getElem _ _ hi, List.getD_eq_getElem _ _ (by omega), sub_ne_zero]
      exact (List.pairwise_iff_getElem.mp hs i (i + 1) (by omega) hi (by omega)).ne'
    rw [pieceDeriv, initPieces_inner _ _ _ _ hx _ hi, polyDeriv_eq]
    obtain ⟨s1, _, s3, _⟩ := hermite_spec hinv (args.length - 1) _ hgap (col (divFact K args) i)
      (col (divFact K args) (i + 1)) (topCoeff K (args.length - 1) (some z) i) (by simp; omega)
      (by simp; omega)
    have htop : ∀ (c : List V) (m : ℕ) (t : K), c.length = m + 1 → taylorCoeff c t m = c.getD m 0 := by
      intro c m t hc
      unfold taylorCoeff
      rw [hc, Finset.sum_range_succ, Finset.sum_eq_zero]
      · simp
      · intro j hj
        rw [Finset.mem_range] at hj
        rw [Nat.choose_eq_zero_of_lt hj]; simp
    rw [htop _ _ _ (by rw [s1, length_topCoeff]; simp; omega)]
    have := s3 0
    rw [show 2 * (args.length - 1 + 1) + 0 = 2 * args.length by omega] at this
    rw [this]
    simp only [topCoeff, List.getD_cons_zero, smul_smul, evenDiv]
    have : args.length - 1 + 1 = args.length := by omega
    rw [this, mul_one_div]

/-- **C08**, parabolas (`h = 0`): the second derivative over `2!` is the given array. -/
theorem C08_even_parabola {inv : InvFun K} (hinv : InvOK inv) {xk : List K} (hs : xk.Pairwise (· < ·))
    (hx : 2 ≤ xk.length) {y z : List V} (hy : y.length = xk.length) (hz : z.length + 1 = xk.length) :
    ∃ p, init inv xk [y, z] = .ok p ∧ p.n = 3 ∧
      ∀ i, i + 1 < xk.length → ∀ x, pieceDeriv p (i + 1) x 2 = (2:K) • z.getD i 0 := by
  obtain ⟨p, h1, _, _, h4, _, h6⟩ := C08_even_partial hinv hs hx (args := [y]) (by simp)
    (by simpa using hy) hz
  refine ⟨p, h1, h4, fun i hi x => ?_⟩
  have := h6 i hi x
  simpa using this

/-- **C08** is false for even degree ≥ 4 (`h ≥ 1`): here `h = 1`, the array given for the 4th
derivative over 4! is 1, the coefficient in the interval is 1/2. -/
theorem C08_even_refuted : ∃ p, init (adjInv ℚ) [0, 1] [[0, 0], [0, 0], [1]] =
      (.ok p : Except PyErr (PwPoly ℚ ℚ)) ∧ p.n = 5 ∧
    pieceDeriv p 1 0 4 / Nat.factorial 4 = 1/2 := by
  refine ⟨⟨[0, 1], 5, [[0, 0, 0, 0, 0], [0, 0, 1/2, -1, 1/2], [0, 0, 0, 0, 0]]⟩, by decide +kernel, rfl, ?_⟩
  decide +kernel

/-! ### C13 -/

/-- `reknot` on increasing knots is the constructor on sampled data. -/
theorem reknot_eq (inv : InvFun K) (p : PwPoly K V) {xk : List K} (hs : xk.Pairwise (· < ·))
    (hx : 2 ≤ xk.length) (n : ℕ) :
    p.reknot inv xk (some n) = .ok (initPieces inv xk
      ((List.range ((n - 1) / 2 + 1)).map fun k => xk.map fun x => (p.callN x ((n - 1) / 2)).getD k 0)
      (if n % 2 = 0 then
        some (List.zipWith (fun a b => (p.deriv n).call ((1/2 : K) * (b + a))) xk xk.tail) else none)) := by
  unfold reknot
  have hxn : xk ≠ [] := by rintro rfl; simp at hx
  have hd : ¬ (xk.getD (xk.length - 1) 0 < xk.getD 0 0) := fun h => not_dec hs ⟨by omega, h⟩
  simp only [Option.getD_some]
  rw [if_neg hxn, if_neg hd]
  by_cases h : n % 2 = 0
  · rw [if_pos h, if_pos h, init_even inv hs hx (by simp) (by simp) (by simp; omega)]
  · rw [if_neg h, if_neg h, init_odd inv hs hx (by simp) (by simp)]

theorem reknot_row (p : PwPoly K V) (xk : List K) (h j k : ℕ) (hj : j < xk.length) (hk : k < h + 1) :
    (((List.range (h + 1)).map fun k => xk.map fun x => (p.callN x h).getD k 0).getD k []).getD j 0 =
      (p.callN (xk.getD j 0) h).getD k 0 := by
  have e : ((List.range (h + 1)).map fun k => xk.map fun x => (p.callN x h).getD k 0).getD k [] =
      xk.map fun x => (p.callN x h).getD k 0 := by
    rw [List.getD_eq_getElem _ _ (by simpa using hk), List.getElem_map, List.getElem_range]
  rw [e, List.getD_eq_getElem _ _ (by simpa using hj), List.getElem_map, List.getD_eq_getElem _ _ hj]

/-- **C13**, odd degree — `q = p.reknot(xk, n)` with `n` odd has knots `xk`, degree `n`, and at every
new knot value and derivatives up to `(n-1)/2` of `p` (as evaluated by `p`: of the piece of `p` the
knot belongs to), from both sides.  `p` of degree at least one, or `n = 1` (`p(x, nd)` is wrong for
constants, finding 1). -/
theorem C13_reknot_odd_partial {inv : InvFun K} (hinv : InvOK inv) {p : PwPoly K V} (hp : WF p)
    {xk : List K} (hs : xk.Pairwise (· < ·)) (hx : 2 ≤ xk.length) {n : ℕ} (hn : n % 2 = 1)
    (hdeg : 2 ≤ p.n ∨ n = 1) :
    ∃ q, p.reknot inv xk (some n) = .ok q ∧ WF q ∧ q.xk = xk ∧ q.n = n + 1 ∧
      ∀ j < xk.length, ∀ i, InPiece p.xk i (xk.getD j 0) → ∀ k ≤ (n - 1) / 2,
        pieceDeriv q j (xk.getD j 0) k = pieceDeriv p i (xk.getD j 0) k ∧
        pieceDeriv q (j + 1) (xk.getD j 0) k = pieceDeriv p i (xk.getD j 0) k := by
  refine ⟨_, reknot_eq inv p hs hx n, initPieces_WF hinv hs hx _ (by simp) _, rfl, ?_, ?_⟩
  · simp [initPieces, hn]; omega
  · intro j hj i hi k hk
    have e := (((C04_call_partial hp _).2 i hi).2 ((n - 1) / 2) (by omega)).2 k hk
    obtain ⟨h1, h2⟩ := initPieces_knot hinv hs hx ((List.range ((n - 1) / 2 + 1)).map
      fun k => xk.map fun x => (p.callN x ((n - 1) / 2)).getD k 0) (by simp)
      (if n % 2 = 0 then
        some (List.zipWith (fun a b => (p.deriv n).call ((1/2 : K) * (b + a))) xk xk.tail) else none)
      j hj k (by simp; omega)
    rw [reknot_row _ _ _ _ _ hj (by omega), e] at h1 h2
    exact ⟨h1, h2⟩

/-- **C13**, even degree `n ≥ 2`, what is true: degree `n`, values and derivatives up to `(n-1)//2` match,
but the `n`-th derivative in interval `i` is that of `p` at the midpoint *times*
`n! / ((n/2)(n/2+1)…(n-2))` — 2 for parabolas, 12 for quartics (`C13_even_refuted`). -/
theorem C13_reknot_even_partial {inv : InvFun K} (hinv : InvOK inv) {p : PwPoly K V} (hp : WF p)
    {xk : List K} (hs : xk.Pairwise (· < ·)) (hx : 2 ≤ xk.length) {n : ℕ} (hn : n % 2 = 0) (hn2 : 2 ≤ n)
    (hdeg : 2 ≤ p.n ∨ n = 2) :
    ∃ q, p.reknot inv xk (some n) = .ok q ∧ WF q ∧ q.xk = xk ∧ q.n = n + 1 ∧
      (∀ j < xk.length, ∀ i, InPiece p.xk i (xk.getD j 0) → ∀ k ≤ (n - 1) / 2,
        pieceDeriv q j (xk.getD j 0) k = pieceDeriv p i (xk.getD j 0) k ∧
        pieceDeriv q (j + 1) (xk.getD j 0) k = pieceDeriv p i (xk.getD j 0) k) ∧
      ∀ j, j + 1 < xk.length → ∀ i, InPiece p.xk i ((xk.getD j 0 + xk.getD (j + 1) 0) / 2) → ∀ x,
        pieceDeriv q (j + 1) x n =
          ((Nat.factorial n : K) / ((List.range (n / 2 - 1)).map (fun m => n / 2 + m)).prod) •
            pieceDeriv p i ((xk.getD j 0 + xk.getD (j + 1) 0) / 2) n := by
  set rows := (List.range ((n - 1) / 2 + 1)).map fun k => xk.map fun x =>
    (p.callN x ((n - 1) / 2)).getD k 0 with hrows
  set z := List.zipWith (fun a b => (p.deriv n).call ((1/2 : K) * (b + a))) xk xk.tail with hz
  have hlen : rows.length = n / 2 := by simp [hrows]; omega
  obtain ⟨q, h1, h2, h3, h4, h5, h6⟩ := C08_even_partial hinv hs hx (args := rows) (by simp [hrows])
    (by simp [hrows]) (z := z) (by simp [hz]; omega)
  have hq : p.reknot inv xk (some n) = .ok q := by
    rw [reknot_eq inv p hs hx n, if_pos hn, ← hrows, ← hz, ← h1,
      init_even inv hs hx (by simp [hrows]) (by simp [hrows]) (by simp [hz]; omega)]
  refine ⟨q, hq, h2, h3, by omega, ?_, ?_⟩
  · intro j hj i hi k hk
    have e := (((C04_call_partial hp _).2 i hi).2 ((n - 1) / 2) (by omega)).2 k hk
    obtain ⟨h1, h2⟩ := h5 j hj k (by omega)
    rw [hrows, reknot_row _ _ _ _ _ hj (by omega), e] at h1 h2
    exact ⟨h1, h2⟩
  · intro j hj i hi x
    have e := h6 j hj x
    rw [hlen, show 2 * (n / 2) = n by omega] at e
    rw [e]
    congr 1
    rw [hz, List.getD_eq_getElem _ _ (by simp; omega), List.getElem_zipWith, List.getElem_tail]
    have : (1/2 : K) * (xk[j + 1] + xk[j]) = (xk.getD j 0 + xk.getD (j + 1) 0) / 2 := by
      rw [List.getD_eq_getElem _ _ hj, List.getD_eq_getElem _ _ (by omega)]; ring
    rw [this, ((C09_deriv hp n).2.2.2 i _ hi).1]

/-- **C13** is false for even `n`: re-knotting the parabola `x²` with `n = 2` on its own knots gives second
derivative 4 instead of 2. -/
theorem C13_even_refuted : ∃ p q : PwPoly ℚ ℚ, WF p ∧ p.reknot (adjInv ℚ) [0, 1] (some 2) = .ok q ∧
    (p.deriv 2).call (1/2) = 2 ∧ (q.deriv 2).call (1/2) = 4 := by
  refine ⟨⟨[0, 1], 3, [[0, 0, 1], [0, 0, 1], [1, 2, 1]]⟩,
    ⟨[0, 1], 3, [[0, 0, 0], [0, -1, 2], [1, 0, 0]]⟩, ?_, ?_, ?_, ?_⟩
  · exact ⟨by simp, by decide +kernel, rfl, by simp, by simp⟩
  all_goals decide +kernel

/-- **C13** is false for `n = 0`: the result has degree 2, not 0. -/
theorem C13_zero_refuted : ∃ p q : PwPoly ℚ ℚ, WF p ∧ p.reknot (adjInv ℚ) [0, 1] (some 0) = .ok q ∧
    q.n = 3 := by
  refine ⟨⟨[0, 1], 1, [[5], [5], [5]]⟩, ⟨[0, 1], 3, [[5, 0, 0], [5, -5, 5], [5, 0, 0]]⟩, ?_, ?_, ?_⟩
  · exact ⟨by simp, by decide +kernel, rfl, by simp, by simp⟩
  all_goals decide +kernel

/-- At a knot that is also a new knot, a `p` with continuous derivatives has the same derivatives in the
piece to the right of it. -/
theorem pieceDeriv_right {p : PwPoly K V} (hp : WF p) {xk : List K} (hs : xk.Pairwise (· < ·))
    (hsub : ∀ a ∈ p.xk, a ∈ xk) {H j i m : ℕ} (hj : j + 1 < xk.length)
    (hC : ∀ a < p.xk.length, ∀ k ≤ H, MatchAt p k a)
    (hi : InPiece p.xk i (xk.getD j 0)) (hm : InPiece p.xk m (xk.getD (j + 1) 0)) (k : ℕ) (hk : k ≤ H) :
    pieceDeriv p i (xk.getD j 0) k = pieceDeriv p m (xk.getD j 0) k := by
  rw [List.getD_eq_getElem _ _ (by omega)] at hi ⊢
  rw [List.getD_eq_getElem _ _ hj] at hm
  have hlt := List.pairwise_iff_getElem.mp hs j (j + 1) (by omega) hj (by omega)
  have him : i ≤ m := by
    by_contra hc
    push Not at hc
    have h1 := hi.2.1 m (by have := hi.1; omega) hc
    have h2 := hm.2.2 m (by have := hi.1; omega) le_rfl
    exact absurd (h2.trans_lt h1) (not_lt.mpr hlt.le)
  -- a knot of p in [xk j, xk (j+1)) is xk j
  have hknot : ∀ a (ha : a < p.xk.length), xk[j] ≤ p.xk[a] → p.xk[a] < xk[j+1] → p.xk[a] = xk[j] := by
    intro a ha h1 h2
    obtain ⟨b, hb, e⟩ := List.getElem_of_mem (hsub _ (List.getElem_mem ha))
    rw [← e] at h1 h2 ⊢
    have : b = j := by
      by_contra hne
      rcases Nat.lt_or_gt_of_ne hne with h | h
      · exact absurd (List.pairwise_iff_getElem.mp hs b j hb (by omega) h) (not_lt.mpr h1)
      · rcases Nat.eq_or_lt_of_le (show j + 1 ≤ b by omega) with e | e
        · subst e; exact lt_irrefl _ h2
        · exact absurd (List.pairwise_iff_getElem.mp hs (j+1) b hj hb e) (not_lt.mpr h2.le)
    subst this; rfl
  rcases Nat.eq_or_lt_of_le him with e | e
  · rw [e]
  · have hil : i < p.xk.length := by have := hm.1; omega
    have e1 := hknot i hil (hi.2.2 i hil le_rfl) (hm.2.1 i hil e)
    have hmi : m = i + 1 := by
      by_contra hne
      have hil' : i + 1 < p.xk.length := by have := hm.1; omega
      have h1 := hi.2.2 (i + 1) hil' (by omega)
      have h2 := hm.2.1 (i + 1) hil' (by omega)
      have e2 := hknot (i + 1) hil' h1 h2
      -- two equal consecutive knots
      exact absurd (e1.trans e2.symm)
        (List.pairwise_iff_getElem.mp hp.inc i (i + 1) hil hil' (by omega)).ne
    have := hC i hil k hk
    unfold MatchAt at this
    rw [List.getD_eq_getElem _ _ hil, e1] at this
    rw [this, hmi]

theorem taylorCoeff_of_polyDeriv {c d : List V} {x y : K} {k : ℕ} (h : polyDeriv c x k = polyDeriv d y k) :
    taylorCoeff c x k = taylorCoeff d y k := by
  rw [polyDeriv_eq, polyDeriv_eq] at h
  have hf : (Nat.factorial k : K) ≠ 0 := by
    have := Nat.factorial_pos k
    positivity
  exact smul_right_injective V hf h

/-- **C13**, exactness — if the new knots contain all the knots of `p`, `p` has odd degree `2h+1` and
continuous derivatives up to order `h`, then `p.reknot(xk)` (default degree) is the same function
between the end knots. -/
theorem C13_reknot_exact {inv : InvFun K} (hinv : InvOK inv) {p : PwPoly K V} (hp : WF p)
    {xk : List K} (hs : xk.Pairwise (· < ·)) (hx : 2 ≤ xk.length) (hsub : ∀ a ∈ p.xk, a ∈ xk)
    {h : ℕ} (hdeg : p.n = 2 * h + 2) (hC : ∀ a < p.xk.length, ∀ k ≤ h, MatchAt p k a)
    {q : PwPoly K V} (hq : p.reknot inv xk = .ok q) (x : K) (hx0 : xk.getD 0 0 ≤ x)
    (hx1 : x ≤ xk.getD (xk.length - 1) 0) : q.call x = p.call x := by
  have hh : (2 * h + 1 - 1) / 2 = h := by omega
  obtain ⟨q', h1, hwf, hxk, hn, hd⟩ := C13_reknot_odd_partial hinv hp hs hx (n := 2 * h + 1) (by omega)
    (Or.inl (by omega))
  have : p.reknot inv xk = p.reknot inv xk (some (2 * h + 1)) := by
    unfold reknot; simp [hdeg]
  rw [this, h1] at hq; cases hq
  rw [hh] at hd
  obtain ⟨i, hi, _⟩ := existsUnique_inPiece hs x
  have hi' : InPiece q.xk i x := by rw [hxk]; exact hi
  have hil : i < xk.length := by
    by_contra hc
    have := hi.2.1 (xk.length - 1) (by omega) (by omega)
    rw [List.getD_eq_getElem _ _ (by omega)] at hx1
    exact absurd (lt_of_lt_of_le this hx1) (lt_irrefl _)
  rcases Nat.eq_zero_or_pos i with h0 | h0
  · -- x is the first knot
    subst h0
    have hxx : x = xk.getD 0 0 := by
      apply le_antisymm _ hx0
      rw [List.getD_eq_getElem _ _ (by omega)]
      exact hi.2.2 0 (by omega) le_rfl
    obtain ⟨m, hm, _⟩ := existsUnique_inPiece hp.inc (xk.getD 0 0)
    have := (hd 0 (by omega) m hm 0 (by omega)).1
    rw [((C04_call_partial hwf x).2 0 hi').1]
    subst hxx
    rw [((C04_call_partial hp _).2 m hm).1, pieceVal, pieceVal, ← polyDeriv_zero, ← polyDeriv_zero]
    exact this
  · obtain ⟨j, rfl⟩ : ∃ j, i = j + 1 := ⟨i - 1, by omega⟩
    obtain ⟨m, hm, _⟩ := existsUnique_inPiece hp.inc (xk.getD (j + 1) 0)
    obtain ⟨m0, hm0, _⟩ := existsUnique_inPiece hp.inc (xk.getD j 0)
    have hgap : xk.getD (j + 1) 0 - xk.getD j 0 ≠ 0 := by
      rw [List.getD_eq_getElem _ _ hil, List.getD_eq_getElem _ _ (by omega), sub_ne_zero]
      exact (List.pairwise_iff_getElem.mp hs j (j + 1) (by omega) hil (by omega)).ne'
    have horig : origin q.xk (j + 1) = xk.getD j 0 := by rw [hxk]; simp [origin]
    have hpl := hp.piece_length hm.1
    have hql := hwf.piece_length (i := j + 1) (by rw [hxk]; omega)
    have key : piece q (j + 1) = tcList (piece p m) (xk.getD j 0 - origin p.xk m) (2 * h + 1) := by
      apply hermite_unique hinv h _ hgap
      · rw [hql, hn]; ring
      · simp [tcList]; omega
      · intro k hk
        rw [tcList_getD _ _ _ _ (by omega), ← taylorCoeff_at_zero (K := K)]
        apply taylorCoeff_of_polyDeriv
        have e := (hd j (by omega) m0 hm0 k hk).2
        rw [pieceDeriv_right hp hs hsub hil hC hm0 hm k hk] at e
        unfold pieceDeriv at e
        rw [horig, sub_self] at e
        exact e
      · intro k hk
        rw [taylorCoeff_tcList _ _ _ _ _ (by omega)]
        apply taylorCoeff_of_polyDeriv
        have e := (hd (j + 1) hil m hm k hk).1
        unfold pieceDeriv at e
        rw [horig] at e
        rw [e]
        congr 1; ring
    have hmx : InPiece p.xk m x := by
      refine ⟨hm.1, fun a ha ham => ?_, fun a ha ham => ?_⟩
      · have h1 := hm.2.1 a ha ham
        rw [List.getD_eq_getElem _ _ hil] at h1
        have h2 := hi.2.1 j (by omega) (by omega)
        obtain ⟨b, hb, e⟩ := List.getElem_of_mem (hsub _ (List.getElem_mem ha))
        rw [← e] at h1 ⊢
        refine lt_of_le_of_lt ?_ h2
        have hbj : b ≤ j := by
          by_contra hc
          rcases Nat.eq_or_lt_of_le (show j + 1 ≤ b by omega) with e | e
          · subst e; exact lt_irrefl _ h1
          · exact absurd (List.pairwise_iff_getElem.mp hs (j+1) b hil hb e) (not_lt.mpr h1.le)
        rcases Nat.eq_or_lt_of_le hbj with e | e
        · subst e; exact le_rfl
        · exact (List.pairwise_iff_getElem.mp hs b j hb (by omega) e).le
      · have h1 := hm.2.2 a ha ham
        rw [List.getD_eq_getElem _ _ hil] at h1
        exact (hi.2.2 (j + 1) hil le_rfl).trans h1
    rw [((C04_call_partial hwf x).2 _ hi').1, ((C04_call_partial hp x).2 m hmx).1, pieceVal, pieceVal,
      key, polyVal_tcList _ _ _ _ (by omega), horig]
    congr 1; ring

/-- Non-trivial instance: a C¹ cubic with knots 0, 1 re-knotted on 0, 1/2, 1, 2. -/
def exR : PwPoly ℚ ℚ := ⟨[0, 1], 4, [[1, 0, 0, 0], [1, 0, 0, 1], [2, 3, 5, 0]]⟩

example : WF exR ∧ (∀ a < exR.xk.length, ∀ k ≤ 1, MatchAt exR k a) := by
  refine ⟨⟨by simp [exR], by decide +kernel, rfl, by simp [exR], by simp [exR]⟩, ?_⟩
  unfold MatchAt; decide +kernel

example : (exR.reknot (adjInv ℚ) [0, 1/2, 1, 2]).toOption.map (fun q => q.call (3/2)) = some (exR.call (3/2)) := by
  decide +kernel

end Npplus
