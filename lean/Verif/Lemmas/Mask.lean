import Verif.Lemmas.Levmar
import Mathlib.Data.List.GetD

/-!
# Boolean masks and the indices they select
-/

set_option linter.unusedSectionVars false
namespace Npplus.Spec

/-- The indices selected by a mask, in increasing order. -/
def freeIdx (mask : List Bool) : List ℕ := (List.range mask.length).filter fun i => mask.getD i false

end Npplus.Spec

namespace Npplus
open Npplus.Spec

theorem freeIdx_cons (b : Bool) (m : List Bool) :
    freeIdx (b :: m) = (if b then [0] else []) ++ (freeIdx m).map Nat.succ := by
  unfold freeIdx
  rw [List.length_cons, List.range_succ_eq_map, List.filter_cons, List.filter_map]
  cases b <;> simp [Function.comp_def]

theorem freeIdx_length (m : List Bool) : (freeIdx m).length = m.countP id := by
  induction m with
  | nil => rfl
  | cons b m ih => rw [freeIdx_cons]; cases b <;> simp [ih]

theorem mem_freeIdx {m : List Bool} {i : ℕ} : i ∈ freeIdx m ↔ i < m.length ∧ m.getD i false = true := by
  unfold freeIdx
  rw [List.mem_filter, List.mem_range]

theorem freeIdx_lt {m : List Bool} {k : ℕ} (hk : k < (freeIdx m).length) : (freeIdx m).getD k 0 < m.length ∧
    m.getD ((freeIdx m).getD k 0) false = true := by
  rw [List.getD_eq_getElem _ _ hk]
  exact mem_freeIdx.1 (List.getElem_mem hk)

theorem freeIdx_getD_cons_succ {m : List Bool} {k : ℕ} (hk : k < (freeIdx m).length) :
    (freeIdx (true :: m)).getD (k + 1) 0 = (freeIdx m).getD k 0 + 1 := by
  rw [freeIdx_cons, List.getD_eq_getElem _ _ (by simpa using hk), List.getD_eq_getElem _ _ hk]
  simp

theorem freeIdx_getD_cons_false {m : List Bool} {k : ℕ} (hk : k < (freeIdx m).length) :
    (freeIdx (false :: m)).getD k 0 = (freeIdx m).getD k 0 + 1 := by
  rw [freeIdx_cons, List.getD_eq_getElem _ _ (by simpa using hk), List.getD_eq_getElem _ _ hk]
  simp

theorem maskGet_getD {α : Type} (d : α) : ∀ (m : List Bool) (x : List α), m.length = x.length → ∀ k < (freeIdx m).length,
    (maskGet m x).getD k d = x.getD ((freeIdx m).getD k 0) d
  | [], [], _, k, hk => by simp [freeIdx] at hk
  | true :: m, a :: x, h, 0, hk => by
    rw [maskGet_cons', if_pos rfl, freeIdx_cons]; simp
  | true :: m, a :: x, h, k + 1, hk => by
    have hk' : k < (freeIdx m).length := by rw [freeIdx_cons] at hk; simpa using hk
    rw [maskGet_cons', if_pos rfl, freeIdx_getD_cons_succ hk', List.getD_cons_succ, List.getD_cons_succ]
    exact maskGet_getD d m x (by simpa using h) k hk'
  | false :: m, a :: x, h, k, hk => by
    have hk' : k < (freeIdx m).length := by rw [freeIdx_cons] at hk; simpa using hk
    rw [maskGet_cons', if_neg (by simp), freeIdx_getD_cons_false hk', List.getD_cons_succ]
    exact maskGet_getD d m x (by simpa using h) k hk'

/-- Changing the `k`-th free parameter changes element `freeIdx k` of the full vector. -/
theorem maskSet_set {α : Type} : ∀ (m : List Bool) (x : List α), m.length = x.length → ∀ k < (freeIdx m).length, ∀ a,
    maskSet m ((maskGet m x).set k a) x = x.set ((freeIdx m).getD k 0) a
  | [], [], _, k, hk, a => by simp [freeIdx] at hk
  | true :: m, b :: x, h, 0, hk, a => by
    rw [maskGet_cons', if_pos rfl, freeIdx_cons, List.set_cons_zero, maskSet, maskSet_maskGet m x (by simpa using h)]
    simp
  | true :: m, b :: x, h, k + 1, hk, a => by
    have hk' : k < (freeIdx m).length := by rw [freeIdx_cons] at hk; simpa using hk
    rw [maskGet_cons', if_pos rfl, freeIdx_getD_cons_succ hk', List.set_cons_succ, maskSet,
      maskSet_set m x (by simpa using h) k hk' a, List.set_cons_succ]
  | false :: m, b :: x, h, k, hk, a => by
    have hk' : k < (freeIdx m).length := by rw [freeIdx_cons] at hk; simpa using hk
    rw [maskGet_cons', if_neg (by simp), freeIdx_getD_cons_false hk', maskSet,
      maskSet_set m x (by simpa using h) k hk' a, List.set_cons_succ]

theorem maskSet_getD_free {α : Type} (d : α) : ∀ (m : List Bool) (v y : List α), m.length = y.length →
    v.length = m.countP id → ∀ k < (freeIdx m).length, (maskSet m v y).getD ((freeIdx m).getD k 0) d = v.getD k d := by
  intro m v y h1 h2 k hk
  rw [← maskGet_getD d m _ (by rw [maskSet_length]; exact h1) k hk, maskGet_maskSet m v y h1 h2]

end Npplus
