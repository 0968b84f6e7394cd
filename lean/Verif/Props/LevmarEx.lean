import Verif.Props.LevmarCov
import Verif.Props.LevmarTerm
import Mathlib.Tactic.NormNum
import Mathlib.Tactic.FieldSimp

/-!
# Concrete runs of levmar, and two witnesses for C48
-/

set_option linter.unusedSectionVars false
namespace Npplus
open Npplus.Spec

section lib
variable {K : Type} [Field K] [LinearOrder K] [IsStrictOrderedRing K]

/-- an exact `numpy.linalg.solve` for one or two unknowns -/
def solve2 : List (List K) → List K → Except PyErr (List K)
  | [[a]], [x] => if a = 0 then .error .linAlgError else .ok [x / a]
  | [[a, b], [c, d]], [x, y] =>
    if a * d - b * c = 0 then .error .linAlgError
    else .ok [(d * x - b * y) / (a * d - b * c), (a * y - c * x) / (a * d - b * c)]
  | _, _ => .error .linAlgError

/-- an exact `numpy.linalg.inv` for one or two unknowns -/
def inv2 : List (List K) → Except PyErr (List (List K))
  | [[a]] => if a = 0 then .error .linAlgError else .ok [[1 / a]]
  | [[a, b], [c, d]] =>
    if a * d - b * c = 0 then .error .linAlgError
    else .ok [[d / (a * d - b * c), -b / (a * d - b * c)], [-c / (a * d - b * c), a / (a * d - b * c)]]
  | _ => .error .linAlgError

theorem solve2_len : SolveLen (solve2 (K := K)) := by
  intro A b x h
  unfold solve2 at h
  split at h
  · split_ifs at h; cases h; rfl
  · split_ifs at h; cases h; rfl
  · cases h

theorem inv2_ok : InvOK (inv2 (K := K)) := by
  intro A B h _
  unfold inv2 at h
  split at h
  · rename_i a
    split_ifs at h with ha
    cases h
    refine ⟨rfl, by simp, ?_⟩
    intro i hi j hj
    simp only [List.length_cons, List.length_nil, zero_add, Nat.lt_one_iff] at hi hj
    subst hi hj
    simp [ent, mul_inv_cancel₀ ha]
  · rename_i a b c d _
    generalize hD : a * d - b * c = D at h
    split_ifs at h with ha
    cases h
    refine ⟨rfl, by simp, ?_⟩
    intro i hi j hj
    simp only [List.length_cons, List.length_nil, zero_add, Nat.reduceAdd] at hi hj ⊢
    interval_cases i <;> interval_cases j <;> simp [ent, Finset.sum_range_succ] <;> field_simp
    · linear_combination hD
    · ring
    · ring
    · linear_combination hD
  · cases h

end lib

/-! ### a plain function with bounds, a fixed parameter and finite differences -/

/-- configuration of the examples -/
def exCfg : LmCfg ℚ where
  itmax := 2
  tol := 1 / 10
  lambda0 := 1 / 4
  lambdax := 100
  gain := 2
  prel := 1 / 2
  pabs := 1 / 8

/-- Fit `[p0*p1, p0 + 3*p1]` (and an unused parameter) to `[6, 8]`; `p2` is fixed, `p1` is bounded by 3/2. -/
def exArgs : LmArgs ℚ where
  data := [6, 8]
  errs := [1, 2]
  p0 := [1, 1, 7]
  pfix := some [-1]
  pmin := some [0]
  pmax := some [10, 3 / 2, 10]
  cfg := exCfg

example : SolveLen (solve2 (K := ℚ)) ∧ InvOK (inv2 (K := ℚ)) := ⟨solve2_len, inv2_ok⟩

theorem exArgs_in : InBounds exArgs exArgs.p0 := by
  refine ⟨rfl, fun i hi => ⟨fun l hl => ?_, fun l hl => ?_⟩⟩
  · cases hl
    simp only [exArgs, List.length_cons, List.length_nil] at hi
    interval_cases i <;> decide +kernel
  · cases hl
    simp only [exArgs, List.length_cons, List.length_nil] at hi
    interval_cases i <;> decide +kernel

theorem exArgs_steps : StepsNonneg exArgs := by
  intro i hi
  simp only [exArgs, List.length_cons, List.length_nil] at hi
  interval_cases i <;> left <;> decide +kernel

/-- what is looked at in the examples -/
def exObs (x : Except Stop (LmFit ℚ) × List (List ℚ)) : Option (List ℚ × ℤ × List (List ℚ) × Bool) × ℕ :=
  (x.1.toOption.map fun r => (r.p, r.ndof, r.path, r.warned), x.2.length)

/-- C43, C44, C45: the run makes finite difference calls, reaches the bound of `p1`, and keeps `p2`. -/
example : exObs (levmar exArgs exUser solve2 inv2 5 10) = 
    (some ([358550941491 / 88015565645, 305492199 / 209311690, 7], 0, [[3497 / 841, 3 / 2, 7], [1, 1, 7]], true), 8) := by decide +kernel

example : (levmar exArgs exUser solve2 inv2 5 10).2 = [[1, 1, 7], [3 / 2, 1, 7], [1, 3 / 2, 7], [3497 / 841, 3 / 2, 7],
    [3497 / 841, 3 / 2, 7], [10491 / 1682, 3 / 2, 7], [3497 / 841, 3 / 4, 7],
    [358550941491 / 88015565645, 305492199 / 209311690, 7]] := by decide +kernel

/-- C46 for these arguments: `gain > 1` and `lambda0 > 0`. -/
example : 1 < exArgs.cfg.gain ∧ 0 < exArgs.cfg.lambda0 := by decide +kernel

/-! ### witnesses -/

/-- the generator function `yield [p**2, p**2]; yield [[2*p, 2*p]]` -/
def sqUser (n : ℕ) : UserF ℚ where
  isgen := true
  val := fun _ p => .ok (List.replicate n (p.getD 0 0 ^ 2))
  dval := fun _ p => .ok [List.replicate n (2 * p.getD 0 0)]

/-- fit it to data that are all 4 -/
def sqArgs (n : ℕ) : LmArgs ℚ where
  data := List.replicate n 4
  errs := [1]
  p0 := [1]
  cfg := { exCfg with itmax := 1 }

theorem sqUser_pure (n : ℕ) : PureF (sqUser n) (fun p => List.replicate n (p.getD 0 0 ^ 2)) (sqArgs n).data.length :=
  ⟨fun _ _ => rfl, fun _ => by simp [sqArgs]⟩

theorem sqUser_pureD (n : ℕ) : PureD (sqUser n) (fun p => [List.replicate n (2 * p.getD 0 0)]) (sqArgs n).data.length :=
  ⟨fun _ _ => rfl, fun _ r hr => by
    rw [List.mem_singleton] at hr
    subst hr; simp [sqArgs]⟩

/-- p, pcov and ndof of a result -/
def covObs (x : Except Stop (LmFit ℚ) × List (List ℚ)) : Option (List ℚ × List (List ℚ) × ℤ) :=
  x.1.toOption.map fun r => (r.p, r.pcov, r.ndof)

theorem sq2_run : covObs (levmar (sqArgs 2) (sqUser 2) solve2 inv2 1 1) = some ([11 / 5], [[1 / 8]], 1) := by decide +kernel

theorem sq1_run : covObs (levmar (sqArgs 1) (sqUser 1) solve2 inv2 1 1) = some ([11 / 5], [[1 / 4]], 0) := by decide +kernel

/-- **C48, refuted at the returned parameters**: `pcov` is the inverse of the normal matrix at the point before the last
step, not at the returned `p`. -/
theorem C48_pcov_at_p_refuted : ∃ (A : LmArgs ℚ) (F : UserF ℚ) (V : List ℚ → List ℚ) (D : List ℚ → List (List ℚ))
    (r : LmFit ℚ), PureF F V A.data.length ∧ PureD F D A.data.length ∧ (levmar A F solve2 inv2 1 1).1 = .ok r ∧
      ¬ ∃ G, GradAt A F V D r.p G ∧ ∀ i j, i < A.p0.length → j < A.p0.length → ¬ Fixed A i → ¬ Fixed A j →
        ∑ k ∈ Finset.range A.p0.length, normalAt A G i k * ent r.pcov k j = if i = j then 1 else 0 := by
  have h := sq2_run
  unfold covObs at h
  cases hr : (levmar (sqArgs 2) (sqUser 2) solve2 inv2 1 1).1 with
  | error e => rw [hr] at h; cases h
  | ok r =>
    rw [hr] at h
    simp only [Except.toOption, Option.map_some, Option.some.injEq, Prod.mk.injEq] at h
    refine ⟨sqArgs 2, sqUser 2, _, _, r, sqUser_pure 2, sqUser_pureD 2, hr, ?_⟩
    rintro ⟨G, hG, hinv⟩
    have hnf : ¬ Fixed (sqArgs 2) 0 := by rintro ⟨l, hl, -⟩; cases hl
    have h0 := hinv 0 0 (by simp [sqArgs]) (by simp [sqArgs]) hnf hnf
    have hg := hG.1 rfl
    have e0 := hg 0 0
    have e1 := hg 0 1
    rw [h.1] at e0 e1
    simp only [ent, List.getD_cons_zero, List.getD_cons_succ, List.replicate] at e0 e1
    rw [h.2.1] at h0
    simp only [sqArgs, List.length_cons, List.length_nil, zero_add, Finset.sum_range_one, normalAt, List.length_replicate,
      Finset.sum_range_succ, Finset.range_zero, Finset.sum_empty, elem1, ent, List.getD_cons_zero, if_true, e0, e1] at h0
    norm_num at h0

/-- **C48**, the check `ndof <= 0` in levmar has no effect: with as many data as parameters it returns a result with
`ndof = 0` (in floating point `chi2` is then `nan` or `inf`). -/
theorem C48_ndof_zero_accepted : ∃ r : LmFit ℚ, (levmar (sqArgs 1) (sqUser 1) solve2 inv2 1 1).1 = .ok r ∧ r.ndof = 0 := by
  have h := sq1_run
  unfold covObs at h
  cases hr : (levmar (sqArgs 1) (sqUser 1) solve2 inv2 1 1).1 with
  | error e => rw [hr] at h; cases h
  | ok r =>
    rw [hr] at h
    simp only [Except.toOption, Option.map_some, Option.some.injEq, Prod.mk.injEq] at h
    exact ⟨r, rfl, h.2.2⟩

end Npplus
