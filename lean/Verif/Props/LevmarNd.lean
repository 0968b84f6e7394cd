import Verif.Model.Lsq
import Verif.Lemmas.NdArr
import Mathlib.Tactic.NormNum

/-!
# C75: data that are not one-dimensional

The docstring of levmar says that the result of `f` "must have the same dimensions as data", which may have any shape.
The code ravels the data but not the result of `f`.
-/

set_option linter.unusedSectionVars false
namespace Npplus

variable {K : Type} [Field K] [LinearOrder K]

/-- lsqfit.py:279 and 336: `data = data.ravel()`, then `dm = data - dm` with `dm` the value of `f`.  This is the first
thing levmar does with the value of `f`, in every run. -/
def levmarResidual (data fval : NdArr K) : Except PyErr (NdArr K) := (NdArr.ravel data).zip (· - ·) fval

/-- **C75, refuted**: for data of any shape `l ++ [b]` with `b ≥ 2` columns and more than one row, an `f` that returns
values of the shape of the data, as documented, makes levmar raise ValueError. -/
theorem C75_nd_data_refuted (data fval : NdArr K) (l : List ℕ) (b : ℕ) (hb : 2 ≤ b) (hl : 2 ≤ l.prod)
    (hd : data.shape = l ++ [b]) (hf : fval.shape = data.shape) : levmarResidual data fval = .error .valueError := by
  unfold levmarResidual NdArr.zip NdArr.ravel
  have h : bcastShape [data.shape.prod] fval.shape = .error .valueError := by
    unfold bcastShape
    rw [hf, hd]
    have hp : (l ++ [b]).prod = l.prod * b := by simp
    have h1 : l.prod * b ≠ b := by nlinarith
    have h2 : l.prod * b ≠ 1 := by nlinarith
    have : bcastRev [(l ++ [b]).prod].reverse (l ++ [b]).reverse = none := by
      rw [hp]
      simp only [List.reverse_singleton, List.reverse_append, List.singleton_append]
      unfold bcastRev
      rw [show bcastRev [] l.reverse = some l.reverse from by unfold bcastRev; rfl]
      simp only
      rw [if_neg h1, if_neg h2, if_neg (by omega)]
    rw [this]
  simp only [h, bind, Except.bind]

/-- **C75** for one-dimensional data: the residuals are the elementwise differences. -/
theorem C75_1d_partial (data fval : NdArr K) (n : ℕ) (hd : data.shape = [n]) (hf : fval.shape = [n]) :
    ∃ r, levmarResidual data fval = .ok r ∧ r.shape = [n] ∧ ∀ t < n, r.get [t] = data.get [t] - fval.get [t] := by
  unfold levmarResidual NdArr.zip NdArr.ravel
  have h : bcastShape [data.shape.prod] fval.shape = .ok [n] := by
    rw [hd, hf]
    simp [bcastShape, bcastRev]
  simp only [h, bind, Except.bind]
  refine ⟨_, rfl, rfl, fun t ht => ?_⟩
  have hu : NdArr.unravel data.shape (([t] : List ℕ).getD 0 0) = [t] := by
    rw [hd]; simp [NdArr.unravel, Nat.mod_eq_of_lt ht]
  by_cases h1 : n = 1
  · have : t = 0 := by omega
    subst this
    subst h1
    simp [bcIdx, hd, hf, NdArr.unravel]
  · simp [bcIdx, hd, hf, NdArr.unravel, h1, Nat.mod_eq_of_lt ht]

example : ∃ data fval : NdArr ℚ, data.shape = [2, 3] ∧ fval.shape = data.shape ∧
    levmarResidual data fval = .error .valueError :=
  ⟨⟨[2, 3], fun _ => 0⟩, ⟨[2, 3], fun _ => 0⟩, rfl, rfl, C75_nd_data_refuted _ _ [2] 3 (by norm_num) (by norm_num) rfl rfl⟩

end Npplus
