import Mathlib.Order.WithBot
import Mathlib.Algebra.Field.Defs

/-!
# Specification vocabulary: NaN

A number or NaN.  Arithmetic with NaN gives NaN; `numpy.searchsorted` and `sort` put NaN after all numbers.
-/

namespace Npplus.Spec

/-- a number or NaN -/
def WithNan (K : Type) : Type := WithTop K

namespace WithNan
variable {K : Type}

/-- NaN -/
def nan : WithNan K := (⊤ : WithTop K)

/-- a number -/
def num (x : K) : WithNan K := (WithTop.some x : WithTop K)

/-- an operation: NaN if an argument is NaN -/
def op (f : K → K → K) (a b : WithNan K) : WithNan K :=
  match (show Option K from a), (show Option K from b) with
  | some x, some y => num (f x y)
  | _, _ => nan

variable [Field K] [LinearOrder K]

instance : LinearOrder (WithNan K) := inferInstanceAs (LinearOrder (WithTop K))
instance : Zero (WithNan K) := ⟨num 0⟩
instance : Add (WithNan K) := ⟨op (· + ·)⟩
instance : Sub (WithNan K) := ⟨op (· - ·)⟩
instance : Mul (WithNan K) := ⟨op (· * ·)⟩

theorem nan_ne_num (x : K) : (nan : WithNan K) ≠ num x := WithTop.top_ne_coe
theorem num_inj {x y : K} : (num x : WithNan K) = num y ↔ x = y := WithTop.coe_inj
theorem num_lt {x y : K} : (num x : WithNan K) < num y ↔ x < y := WithTop.coe_lt_coe
theorem num_lt_nan (x : K) : (num x : WithNan K) < nan := WithTop.coe_lt_top x
theorem le_nan (a : WithNan K) : a ≤ nan := le_top (α := WithTop K)
theorem zero_def : (0 : WithNan K) = num 0 := rfl
theorem num_add (x y : K) : (num x + num y : WithNan K) = num (x + y) := rfl
theorem num_sub (x y : K) : (num x - num y : WithNan K) = num (x - y) := rfl
theorem num_smul (x y : K) : (num x • num y : WithNan K) = num (x * y) := rfl
theorem cases (a : WithNan K) : a = nan ∨ ∃ x, a = num x := by
  rcases (show Option K from a) with _ | x
  · exact .inl rfl
  · exact .inr ⟨x, rfl⟩
theorem nan_add (b : WithNan K) : nan + b = nan := rfl
theorem add_nan (a : WithNan K) : a + nan = nan := by rcases cases a with rfl | ⟨x, rfl⟩ <;> rfl
theorem nan_sub (b : WithNan K) : nan - b = nan := rfl
theorem nan_smul (b : WithNan K) : (nan : WithNan K) • b = nan := rfl
theorem smul_nan (a : WithNan K) : a • (nan : WithNan K) = nan := by rcases cases a with rfl | ⟨x, rfl⟩ <;> rfl

end WithNan
end Npplus.Spec
