import Verif.Props.SplineUniq
import Verif.Props.PwInit

/-!
# C129: the constructor does not depend on the unit and the origin of x
-/

set_option linter.unusedSectionVars false

namespace Npplus

open Spec PwPoly Spl UniqAux

variable {K : Type} [Field K] [LinearOrder K] [IsStrictOrderedRing K] [FloorRing K]
variable {V : Type} [AddCommGroup V] [Module K V]

namespace UnitsAux

/-- The derivative rows in the new unit: the `k`-th derivative is divided by `a^k`. -/
theorem rows_getD (a : K) (args : List (List V)) (k j : ℕ) :
    ((args.mapIdx fun k r => r.map fun v => (1 / a ^ k) • v).getD k []).getD j 0 =
      (1 / a ^ k) • (args.getD k []).getD j 0 := by
  simp only [List.getD_eq_getElem?_getD, List.getElem?_mapIdx]
  cases h : args[k]? with
  | none => simp
  | some r =>
    simp only [Option.map_some, Option.getD_some, List.getElem?_map]
    cases r[j]? <;> simp

theorem ext_getD {l m : List V} {n : ℕ} (hl : l.length = n) (hm : m.length = n)
    (h : ∀ k < n, l.getD k 0 = m.getD k 0) : l = m := by
  refine List.ext_getElem (by omega) fun k h1 h2 => ?_
  have := h k (by omega)
  rwa [List.getD_eq_getElem _ _ h1, List.getD_eq_getElem _ _ h2] at this

/-- Same data at both ends and same coefficients from the `2(h+1)`-th on: same polynomial. -/
theorem hermite_unique_top {inv : InvFun K} (hinv : InvOK inv) (h m : ℕ) (dx : K) (hdx : dx ≠ 0)
    (a b : List V) (ha : a.length = 2 * (h + 1) + m) (hb : b.length = 2 * (h + 1) + m)
    (h0 : ∀ k ≤ h, a.getD k 0 = b.getD k 0) (ht : ∀ k < m, a.getD (2 * (h + 1) + k) 0 = b.getD (2 * (h + 1) + k) 0)
    (h1 : ∀ k ≤ h, taylorCoeff a dx k = taylorCoeff b dx k) : a = b := by
  have ea := List.take_append_drop (2 * (h + 1)) a
  have eb := List.take_append_drop (2 * (h + 1)) b
  have la : (a.take (2 * (h + 1))).length = 2 * (h + 1) := by rw [List.length_take]; omega
  have lb : (b.take (2 * (h + 1))).length = 2 * (h + 1) := by rw [List.length_take]; omega
  have hdrop : a.drop (2 * (h + 1)) = b.drop (2 * (h + 1)) := by
    refine ext_getD (n := m) (by rw [List.length_drop]; omega) (by rw [List.length_drop]; omega) fun k hk => ?_
    have := ht k hk
    rwa [← ea, ← eb, List.getD_append_right _ _ _ _ (by omega), List.getD_append_right _ _ _ _ (by omega), la, lb,
      Nat.add_sub_cancel_left] at this
  have htake : a.take (2 * (h + 1)) = b.take (2 * (h + 1)) := by
    refine hermite_unique hinv h dx hdx _ _ la lb (fun k hk => ?_) fun k hk => ?_
    · have := h0 k hk
      rwa [← ea, ← eb, List.getD_append _ _ _ _ (by omega), List.getD_append _ _ _ _ (by omega)] at this
    · have := h1 k hk
      rw [← ea, ← eb, taylorCoeff_append, taylorCoeff_append, la, lb, hdrop] at this
      exact add_right_cancel this
  rw [← ea, ← eb, hdrop, htake]

theorem topCoeff_getD (a : K) (h N : ℕ) (z : Option (List V)) (j k : ℕ) :
    (topCoeff K h (z.map fun r => r.map fun v => (1 / a ^ N) • v) j).getD k 0 =
      (1 / a ^ N) • (topCoeff K h z j).getD k 0 := by
  cases z with
  | none => simp [topCoeff]
  | some r =>
    unfold topCoeff
    rcases k with _ | k
    · simp only [Option.map_some, List.getD_cons_zero, List.getD_eq_getElem?_getD, List.getElem?_map]
      cases r[j]? with
      | none => simp
      | some v => simp [smul_smul, mul_comm]
    · simp

theorem topCoeff_length (h : ℕ) (z : Option (List V)) (j : ℕ) :
    (topCoeff K h z j).length = if z.isSome then 1 else 0 := by
  cases z <;> simp [topCoeff]

end UnitsAux

open UnitsAux

/-- **C129** Measuring `x` in another unit from another origin (`x' = a x + b`, `a > 0`, the `k`-th
derivatives divided by `a^k`) gives the same function.  The optional short last array (even degree
`N = 2 * args.length`, one value per interval) is divided by `a^N`. -/
theorem C129_units {inv : InvFun K} (hinv : InvOK inv) {xk : List K} (hs : xk.Pairwise (· < ·))
    (hx : 2 ≤ xk.length) {args : List (List V)} (ha : args ≠ [])
    (hl : ∀ r ∈ args, r.length = xk.length) (z : Option (List V))
    (hz : ∀ r, z = some r → r.length + 1 = xk.length) {a b : K} (ha0 : 0 < a) {p : PwPoly K V}
    (hp : init inv xk (args ++ z.toList) = .ok p) :
    ∃ q, init inv (xk.map fun t => a * t + b) ((args.mapIdx fun k r => r.map fun v => (1 / a ^ k) • v) ++
        (z.map fun r => r.map fun v => (1 / a ^ (2 * args.length)) • v).toList) = .ok q ∧
      ∀ t, q.call (a * t + b) = p.call t := by
  set xk' := xk.map fun t => a * t + b with hxk'
  set args' := args.mapIdx fun k r => r.map fun v => (1 / a ^ k) • v with hargs'
  have hs' : xk'.Pairwise (· < ·) := by
    rw [hxk', List.pairwise_map]
    exact hs.imp fun h => by nlinarith
  have hx' : 2 ≤ xk'.length := by simpa [hxk'] using hx
  have hal : 1 ≤ args.length := List.length_pos_iff.mpr ha
  have hlen' : args'.length = args.length := by simp [hargs']
  have ha' : args' ≠ [] := by intro h; rw [h] at hlen'; simp at hlen'; omega
  have hl' : ∀ r ∈ args', r.length = xk'.length := by
    intro r hr
    rw [hargs', List.mem_mapIdx] at hr
    obtain ⟨i, hi, rfl⟩ := hr
    simp [hxk', hl _ (List.getElem_mem hi)]
  set z' := z.map fun r => r.map fun v => (1 / a ^ (2 * args.length)) • v with hz'
  have hpe : p = initPieces inv xk args z := by
    cases z with
    | none =>
      simp only [Option.toList_none, List.append_nil] at hp
      rw [init_odd inv hs hx ha hl] at hp; cases hp; rfl
    | some r =>
      simp only [Option.toList_some] at hp
      rw [init_even inv hs hx ha hl (hz r rfl)] at hp; cases hp; rfl
  have hok : init inv xk' (args' ++ z'.toList) = .ok (initPieces inv xk' args' z') := by
    cases z with
    | none =>
      simp only [hz', Option.map_none, Option.toList_none, List.append_nil]
      rw [init_odd inv hs' hx' ha' hl']
    | some r =>
      simp only [hz', Option.map_some, Option.toList_some]
      rw [init_even inv hs' hx' ha' hl' (by simp [hxk', hz r rfl])]
  refine ⟨_, hok, fun t => ?_⟩
  have hwp : WF p := by rw [hpe]; exact initPieces_WF hinv hs hx args ha z
  have hwq := initPieces_WF (V := V) hinv hs' hx' args' ha' z'
  set q := initPieces inv xk' args' z' with hq
  have hzs : z'.isSome = z.isSome := by rw [hz']; cases z <;> rfl
  have hpx : p.xk = xk := by rw [hpe]; rfl
  have hqx : q.xk = xk' := rfl
  have hlx : xk'.length = xk.length := by simp [hxk']
  have hfac : ∀ k : ℕ, (Nat.factorial k : K) ≠ 0 := fun k => Nat.cast_ne_zero.mpr (Nat.factorial_ne_zero k)
  -- columns
  have hcol : ∀ i k, (col (divFact K args') i).getD k 0 = (1 / a ^ k) • (col (divFact K args) i).getD k 0 := by
    intro i k
    rw [col_divFact, col_divFact, hargs', rows_getD, smul_comm]
  have hcl : ∀ (l : List (List V)) i, (col (divFact K l) i).length = l.length := by
    intro l i; simp [col, divFact]
  -- pieces
  have hend : ∀ i, col (divFact K args') i ++ List.replicate (args'.length - 1 + 1 + (if z'.isSome then 1 else 0)) 0 =
      scaleC a (col (divFact K args) i ++ List.replicate (args.length - 1 + 1 + (if z.isSome then 1 else 0)) 0) := by
    intro i
    rw [hzs]
    refine ext_getD (n := 2 * args.length + if z.isSome then 1 else 0) (by simp [hcl, hlen']; omega) (by simp [scaleC_length, hcl]; omega) fun k hk => ?_
    rw [scaleC_getD]
    rcases Nat.lt_or_ge k args.length with h | h
    · rw [List.getD_append _ _ _ _ (by rw [hcl]; omega), List.getD_append _ _ _ _ (by rw [hcl]; omega), hcol]
    · rw [List.getD_append_right _ _ _ _ (by rw [hcl]; omega), List.getD_append_right _ _ _ _ (by rw [hcl]; omega)]
      simp [List.getD_eq_getElem?_getD, List.getElem?_replicate]
      split_ifs <;> simp
  have hpiece : ∀ i ≤ xk.length, piece q i = scaleC a (piece p i) := by
    intro i hi
    rcases Nat.eq_zero_or_pos i with rfl | hi0
    · rw [hq, hpe, initPieces_lo, initPieces_lo, hend]
    rcases Nat.lt_or_ge i xk.length with h | h
    · obtain ⟨j, rfl⟩ : ∃ j, i = j + 1 := ⟨i - 1, by omega⟩
      have hgap : xk.getD (j + 1) 0 - xk.getD j 0 ≠ 0 := by
        rw [List.getD_eq_getElem _ _ h, List.getD_eq_getElem _ _ (by omega), sub_ne_zero]
        exact (List.pairwise_iff_getElem.mp hs j (j + 1) (by omega) h (by omega)).ne'
      have hgap' : xk'.getD (j + 1) 0 - xk'.getD j 0 = a * (xk.getD (j + 1) 0 - xk.getD j 0) := by
        rw [hxk', getD_map_affine _ _ h, getD_map_affine _ _ (by omega)]; ring
      have s1 := hermite_spec hinv (args.length - 1) _ hgap (col (divFact K args) j) (col (divFact K args) (j + 1)) (topCoeff K (args.length - 1) z j)
        (by rw [hcl]; omega) (by rw [hcl]; omega)
      have s2 := hermite_spec hinv (args.length - 1) _ (mul_ne_zero ha0.ne' hgap) (col (divFact K args') j) (col (divFact K args') (j + 1)) (topCoeff K (args.length - 1) z' j)
        (by rw [hcl]; omega) (by rw [hcl]; omega)
      rw [hq, hpe, initPieces_inner _ _ _ _ hx' j (by omega), initPieces_inner _ _ _ _ hx j h, hgap', hlen']
      refine hermite_unique_top hinv (args.length - 1) (if z.isSome then 1 else 0) _ (mul_ne_zero ha0.ne' hgap) _ _
        (by rw [s2.1, topCoeff_length, hzs]) (by rw [scaleC_length, s1.1, topCoeff_length]) ?_ ?_ ?_
      · intro k hk
        rw [s2.2.1 k hk, scaleC_getD, s1.2.1 k hk, hcol]
      · intro k hk
        have hk0 : k = 0 := by split at hk <;> omega
        subst hk0
        rw [s2.2.2.1, scaleC_getD, s1.2.2.1, hz', topCoeff_getD,
          show 2 * (args.length - 1 + 1) + 0 = 2 * args.length by omega]
      · intro k hk
        rw [s2.2.2.2 k hk, scaleC_taylor ha0.ne', s1.2.2.2 k hk, hcol]
    · obtain rfl : i = xk.length := by omega
      have e := initPieces_hi inv xk' args' z' hx'
      rw [hlx] at e
      rw [hq, e, hpe, initPieces_hi _ _ _ _ hx, hend]
  obtain ⟨⟨i, hi, -⟩, hc⟩ := C04_call_partial hwp t
  have hiq : InPiece q.xk i (a * t + b) := by
    rw [hpx] at hi
    rw [hqx]
    obtain ⟨h1, h2, h3⟩ := hi
    refine ⟨by omega, fun j hj hji => ?_, fun j hj hij => ?_⟩
    · have := h2 j (by omega) hji
      simp only [hxk', List.getElem_map]; nlinarith
    · have := h3 j (by omega) hij
      simp only [hxk', List.getElem_map]; nlinarith
  rw [((C04_call_partial hwq _).2 i hiq).1, (hc i hi).1]
  have hile : i ≤ xk.length := by rw [← hpx]; exact hi.1
  unfold pieceVal
  rw [hpiece i hile, ← taylorCoeff_zero, ← taylorCoeff_zero, hpx, hqx]
  have ho : a * t + b - origin xk' i = a * (t - origin xk i) := by
    unfold origin
    rw [hxk', getD_map_affine _ _ (by omega)]; ring
  rw [ho, scaleC_taylor ha0.ne', pow_zero, div_one, one_smul]

/-- The hypotheses are met: values and slopes at three unequally spaced knots, new unit 2. -/
example : ∃ p q : PwPoly ℚ ℚ, init (adjInv ℚ) [0, 1, 3] [[1, 2, 0], [0, 1, -1]] = .ok p ∧
    init (adjInv ℚ) [5, 7, 11] [[1, 2, 0], [0, 1/2, -1/2]] = .ok q ∧ ∀ t, q.call (2 * t + 5) = p.call t := by
  have hs : ([0, 1, 3] : List ℚ).Pairwise (· < ·) := by decide +kernel
  have hl : ∀ r ∈ ([[1, 2, 0], [0, 1, -1]] : List (List ℚ)), r.length = ([0, 1, 3] : List ℚ).length := by decide +kernel
  obtain ⟨p, hp, -⟩ := C05_hermite (V := ℚ) adjInv_ok hs (by decide) (by decide) hl
  obtain ⟨q, hq, h⟩ := C129_units (a := 2) (b := 5) adjInv_ok hs (by decide) (by decide) hl none (by simp) (by norm_num) (by simpa using hp)
  refine ⟨p, q, hp, ?_, h⟩
  rw [← hq]
  congr 1 <;> norm_num

/-- ... and for degree 4, one more value per interval, divided by `2 ^ 4`. -/
example : ∃ p q : PwPoly ℚ ℚ, init (adjInv ℚ) [0, 1, 3] [[1, 2, 0], [0, 1, -1], [16, 32]] = .ok p ∧
    init (adjInv ℚ) [5, 7, 11] [[1, 2, 0], [0, 1/2, -1/2], [1, 2]] = .ok q ∧ ∀ t, q.call (2 * t + 5) = p.call t := by
  have hs : ([0, 1, 3] : List ℚ).Pairwise (· < ·) := by decide +kernel
  have hl : ∀ r ∈ ([[1, 2, 0], [0, 1, -1]] : List (List ℚ)), r.length = ([0, 1, 3] : List ℚ).length := by decide +kernel
  have hp := init_even (V := ℚ) (adjInv ℚ) hs (by decide) (by decide) hl (z := [16, 32]) rfl
  obtain ⟨q, hq, h⟩ := C129_units (a := 2) (b := 5) adjInv_ok hs (by decide) (by decide) hl (some [16, 32])
    (by simp) (by norm_num) hp
  refine ⟨_, q, hp, ?_, h⟩
  rw [← hq]
  congr 1 <;> norm_num

end Npplus
