import Verif.Model.Fermi
import Verif.Props.Pcwise
import Mathlib.Tactic

/-!
# ravel, reshape and masks
-/

set_option linter.unusedSectionVars false
namespace Npplus

theorem ravelIdx_spec : ∀ (s idx : List ℕ), ValidIdx s idx → ravelIdx s idx < s.prod ∧ NdArr.unravel s (ravelIdx s idx) = idx
  | [], idx, h => by rw [validIdx_nil] at h; subst h; simp [ravelIdx, NdArr.unravel]
  | d :: s, [], h => by have := h.1; simp at this
  | d :: s, j :: idx, h => by
    rw [validIdx_cons] at h
    obtain ⟨hi, e⟩ := ravelIdx_spec s idx h.2
    have hp : 0 < s.prod := by omega
    refine ⟨?_, ?_⟩
    · rw [List.prod_cons, ravelIdx]
      calc j * s.prod + ravelIdx s idx < j * s.prod + s.prod := by omega
        _ = (j + 1) * s.prod := by ring
        _ ≤ d * s.prod := Nat.mul_le_mul_right _ h.1
    · rw [ravelIdx, NdArr.unravel]
      rw [show j * s.prod + ravelIdx s idx = ravelIdx s idx + s.prod * j by ring, Nat.add_mul_div_left _ _ hp,
        Nat.add_mul_mod_self_left, Nat.div_eq_of_lt hi, Nat.mod_eq_of_lt hi, e]
      simp

theorem ravelIdx_append : ∀ (s idx : List ℕ) (d c : ℕ), s.length = idx.length →
    ravelIdx (s ++ [d]) (idx ++ [c]) = ravelIdx s idx * d + c
  | [], [], d, c, _ => by simp [ravelIdx]
  | [], i :: idx, d, c, h => by simp at h
  | e :: s, [], d, c, h => by simp at h
  | e :: s, i :: idx, d, c, h => by
    simp only [List.cons_append, ravelIdx]
    rw [ravelIdx_append s idx d c (by simpa using h)]
    simp
    ring

variable {α β : Type}

theorem ofList_map [Zero β] (a : NdArr α) (F : α → β) :
    (NdArr.ofList a.shape (a.toList.map F)).shape = a.shape ∧
    ∀ idx, ValidIdx a.shape idx → (NdArr.ofList a.shape (a.toList.map F)).get idx = F (a.get idx) := by
  refine ⟨rfl, fun idx h => ?_⟩
  obtain ⟨h1, h2⟩ := ravelIdx_spec _ _ h
  simp only [NdArr.ofList, NdArr.toList, List.map_map]
  rw [List.getD_eq_getElem _ _ (by simpa using h1)]
  simp [h2]

theorem maskSet_nil : ∀ (ms : List Bool) (ys : List α), maskSet ms [] ys = ys
  | [], ys => by cases ys <;> rfl
  | true :: ms, [] => rfl
  | true :: ms, y :: ys => rfl
  | false :: ms, [] => rfl
  | false :: ms, y :: ys => by simp [maskSet, maskSet_nil ms ys]

theorem maskGet_cons (m : Bool) (ms : List Bool) (x : α) (xs : List α) :
    maskGet (m :: ms) (x :: xs) = if m then x :: maskGet ms xs else maskGet ms xs := by
  cases m <;> simp [maskGet]

theorem maskSet_map (m : α → Bool) (g : α → β) : ∀ (xs : List α) (ys : List β), xs.length = ys.length →
    maskSet (xs.map m) ((maskGet (xs.map m) xs).map g) ys = List.zipWith (fun x y => if m x then g x else y) xs ys
  | [], [], _ => rfl
  | [], y :: ys, h => by simp at h
  | x :: xs, [], h => by simp at h
  | x :: xs, y :: ys, h => by
    have ih := maskSet_map m g xs ys (by simpa using h)
    simp only [List.map_cons, maskGet_cons, List.zipWith_cons_cons]
    cases hm : m x
    · simp [maskSet, ih]
    · simp [maskSet, ih]

/-- The assignment skipped when nothing is selected. -/
theorem maskSet_ite (m : α → Bool) (g : α → β) (xs : List α) (ys : List β) (h : xs.length = ys.length) :
    (if (maskGet (xs.map m) xs).length ≠ 0 then maskSet (xs.map m) ((maskGet (xs.map m) xs).map g) ys else ys) =
    List.zipWith (fun x y => if m x then g x else y) xs ys := by
  rw [← maskSet_map m g xs ys h]
  split_ifs with h0
  · rfl
  · rw [not_not, List.length_eq_zero_iff] at h0
    rw [h0, List.map_nil, maskSet_nil]

end Npplus
