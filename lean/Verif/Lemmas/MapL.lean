import Verif.Model.Spline
import Verif.Lemmas.Poly
import Verif.Lemmas.SolvePer

/-!
# Applying a linear map to the values of a piecewise polynomial commutes with everything
-/

set_option linter.unusedSectionVars false
namespace Npplus
open Spec

variable {K : Type} [Field K] {V W : Type} [AddCommGroup V] [Module K V] [AddCommGroup W] [Module K W] (φ : V →ₗ[K] W)

theorem getD_map_zero (l : List V) (i : ℕ) : (l.map φ).getD i 0 = φ (l.getD i 0) := by
  rw [← map_zero φ, List.getD_map]

theorem getD_map_nil (l : List (List V)) (i : ℕ) : (l.map (List.map φ)).getD i [] = (l.getD i []).map φ := by
  have := List.getD_map (f := List.map φ) (l := l) (n := i) (d := [])
  simpa using this

theorem polyVal_map (c : List V) (x : K) : polyVal (c.map φ) x = φ (polyVal c x) := by
  induction c with
  | nil => simp
  | cons a c ih => rw [List.map_cons, polyVal_cons, polyVal_cons, ih, map_add, map_smul]

theorem polyfun_map (c : List V) (x : K) : polyfun (c.map φ) x = φ (polyfun c x) := by
  rw [polyfun_eq, polyfun_eq, polyVal_map]

theorem polysetup_map (c : List V) (x : K) : polysetup (c.map φ) x = φ (polysetup c x) := by
  unfold polysetup
  rw [← List.map_reverse]
  match c.reverse with
  | [] => simp
  | [a] => simp
  | a :: b :: l => simp [map_add, map_smul]

theorem backFrom3_map (c : List V) : backFrom3 (c.map φ) = (backFrom3 c).map φ := by
  simp [backFrom3, List.map_take, List.map_reverse]

theorem polyddx_map (c : List V) (x : K) (nd : ℕ) : polyddx (c.map φ) x nd = (polyddx c x nd).map φ := by
  unfold polyddx
  rw [backFrom3_map]
  have h0 : polyddxInit (c.map φ) x nd = (polyddxInit c x nd).map φ := by
    unfold polyddxInit
    rw [polysetup_map]
    split
    · simp
    · have : (c.map φ).getLast?.getD 0 = φ (c.getLast?.getD 0) := by
        rw [List.getLast?_map]; cases c.getLast? <;> simp
      rw [this]
      simp [List.map_set]
  rw [h0, List.foldl_map]
  generalize polyddxInit c x nd = p
  induction backFrom3 c generalizing p with
  | nil => rfl
  | cons a l ih =>
    rw [List.foldl_cons, List.foldl_cons, ← ih]
    congr 1
    unfold polyddxStep
    rw [← List.map_take, ← List.map_cons, List.zipWith_map, List.map_zipWith]
    simp [map_add, map_smul]

theorem polyddxNorm_map (c : List V) (x : K) (nd : ℕ) : polyddxNorm (c.map φ) x nd = (polyddxNorm c x nd).map φ := by
  unfold polyddxNorm
  rw [polyddx_map]
  apply List.ext_getElem (by simp)
  intro i h1 h2
  simp

/-- `φ` applied to all the coefficients. -/
def PwPoly.mapL (p : PwPoly K V) : PwPoly K W := ⟨p.xk, p.n, p.c.map (List.map φ)⟩

/-- `φ` applied to all the coefficients. -/
def PerPwPoly.mapL (p : PerPwPoly K V) : PerPwPoly K W := ⟨p.base.mapL φ, p.period⟩

/-- `φ` applied to all the coefficients. -/
def SplineOut.mapL : SplineOut K V → SplineOut K W
  | .pw p => .pw (p.mapL φ)
  | .per p => .per (p.mapL φ)

section
variable [LinearOrder K]

theorem PwPoly.mapL_call (p : PwPoly K V) (x : K) : (p.mapL φ).call x = φ (p.call x) := by
  simp only [PwPoly.call, PwPoly.mapL, getD_map_nil, polyfun_map, PwPoly.xk0]

theorem PwPoly.mapL_callN (p : PwPoly K V) (x : K) (nd : ℕ) : (p.mapL φ).callN x nd = (p.callN x nd).map φ := by
  simp only [PwPoly.callN, PwPoly.mapL, getD_map_nil, polyfun_map, polyddxNorm_map, PwPoly.xk0]
  split <;> simp

theorem trunc_map (e : ℕ) (l : List V) : Spl.trunc e (l.map φ) = (Spl.trunc e l).map φ := by
  unfold Spl.trunc
  apply List.ext_getElem (by simp)
  intro i h1 h2
  simp only [List.getElem_mapIdx, List.getElem_map]
  split <;> simp

theorem modify_map {α β : Type} (f : α → β) (g : α → α) (g' : β → β) (h : ∀ a, g' (f a) = f (g a)) (l : List α) (i : ℕ) :
    (l.map f).modify i g' = (l.modify i g).map f := by
  apply List.ext_getElem (by simp)
  intro k h1 h2
  simp only [List.getElem_modify, List.getElem_map]
  split <;> simp [h]

theorem truncEnds_map (e : ℕ × ℕ) (p : PwPoly K V) : Spl.truncEnds e (p.mapL φ) = (Spl.truncEnds e p).mapL φ := by
  simp only [Spl.truncEnds, PwPoly.mapL, List.length_map]
  rw [modify_map (List.map φ) (Spl.trunc e.1) _ (trunc_map φ e.1), modify_map (List.map φ) (Spl.trunc e.2) _ (trunc_map φ e.2)]

theorem linear_map (e : ℕ × ℕ) (p : PwPoly K V) : Spl.linear e (p.mapL φ) = (Spl.linear e p).mapL φ := by
  simp only [Spl.linear, PwPoly.mapL, List.length_set, List.length_map, getD_map_nil, trunc_map, List.map_set, polyddx_map]
  congr 2
  rw [← List.map_set, getD_map_nil, polyddx_map, trunc_map]

theorem PerPwPoly.new_map (p : PwPoly K V) : PerPwPoly.new (p.mapL φ) = (PerPwPoly.new p).map (PerPwPoly.mapL φ) := by
  obtain ⟨xk, n, c⟩ := p
  unfold PerPwPoly.new PwPoly.mapL
  by_cases h : xk.length < 2
  · simp only [if_pos h]; rfl
  · simp only [if_neg h, Except.map, PerPwPoly.mapL, PwPoly.mapL, List.length_set, List.length_map, getD_map_nil, List.map_set]
    congr 4
    rw [← List.map_set, getD_map_nil, polyddx_map]

theorem PerPwPoly.mapL_call [FloorRing K] (p : PerPwPoly K V) (x : K) : (p.mapL φ).call x = (p.call x).map φ := by
  simp only [PerPwPoly.call, PerPwPoly.mapL]
  cases p.period with
  | none => rfl
  | some r => simp only [Except.map, PwPoly.mapL_call]; rfl

theorem PerPwPoly.mapL_callN [FloorRing K] (p : PerPwPoly K V) (x : K) (nd : ℕ) :
    (p.mapL φ).callN x nd = (p.callN x nd).map (List.map φ) := by
  simp only [PerPwPoly.callN, PerPwPoly.mapL]
  cases p.period with
  | none => rfl
  | some r => simp only [Except.map, PwPoly.mapL_callN]; rfl

end
end Npplus
