import Verif.Lemmas.PwPoly

/-! Helper lemmas about `integ`. -/

set_option linter.unusedSectionVars false
namespace Npplus.PwPoly
open Spec

variable {K : Type} [Field K] [LinearOrder K] [IsStrictOrderedRing K]
variable {V : Type} [AddCommGroup V] [Module K V]

/-- Everything needed about one integration. -/
theorem integStep_getD (xk : List K) (ibnd : ℕ) (lb : K) (c : List (List V)) (k : V)
    (hc : c.length = xk.length + 1) (hib : ibnd ≤ xk.length) :
    ∃ v : V, (∀ i < c.length, (integStep xk ibnd lb c k).getD i [] =
        addHead (stepSum xk (c.map (integPiece K)) i + v) (integPiece K (c.getD i []))) ∧
      (integStep xk ibnd lb c k).length = c.length ∧
      polyVal ((integStep xk ibnd lb c k).getD ibnd []) lb = k := by
  set c1 := c.map (integPiece K) with hc1
  have hl1 : c1.length = xk.length + 1 := by simp [hc1, hc]
  set c2 := if 1 < xk.length then stepUp xk c1 else c1 with hc2
  have hl2 : c2.length = c.length := by
    rw [hc2]; split
    · rename_i h; rw [stepUp_length _ _ hl1 h, hl1, hc]
    · rw [hl1, hc]
  have h2 : ∀ i < c.length, c2.getD i [] = addHead (stepSum xk c1 i) (c1.getD i []) := by
    intro i hi
    rw [hc2]; split
    · rename_i h; exact stepUp_getD _ _ hl1 h i (by omega)
    · rename_i h
      have : stepSum xk c1 i = (0:V) := by
        unfold stepSum; rw [show i - 1 = 0 by omega]; simp
      rw [this, addHead_zero]
  set v := k - polyfun (c2.getD ibnd []) lb with hv
  have hdef : integStep xk ibnd lb c k = c2.map (addHead v) := rfl
  refine ⟨v, ?_, ?_, ?_⟩
  · intro i hi
    rw [hdef, getD_map_ne _ _ _ (by omega) [], h2 i hi, addHead_addHead, hc1,
      getD_map_ne _ _ _ hi []]
  · rw [hdef]; simp [hl2]
  · rw [hdef, getD_map_ne _ _ _ (by omega) [], polyVal_addHead, hv, polyfun_eq]
    · abel
    · rw [h2 _ (by omega), hc1, getD_map_ne _ _ _ (by omega) []]
      simp [integPiece, addHead]

theorem polyDeriv_addHead_succ (v : V) (c : List V) (x : K) (k : ℕ) :
    polyDeriv (addHead v c) x (k + 1) = polyDeriv c x (k + 1) := by
  rw [← polyDeriv_derivPiece, derivPiece_addHead, polyDeriv_derivPiece]

theorem polyDeriv_integPiece_succ (c : List V) (x : K) (k : ℕ) :
    polyDeriv (integPiece K c) x (k + 1) = polyDeriv c x k := by
  rw [← polyDeriv_derivPiece, derivPiece_integPiece]

theorem stepSum_succ (xk : List K) (c : List (List V)) (i : ℕ) :
    stepSum xk c (i + 2) = stepSum xk c (i + 1) +
      polyVal (c.getD (i + 1) []) (xk.getD (i + 1) 0 - xk.getD i 0) := by
  unfold stepSum
  rw [show i + 2 - 1 = i + 1 by omega, show i + 1 - 1 = i by omega, Finset.sum_range_succ]

/-- One integration as a PwPoly. -/
def integOne (p : PwPoly K V) (lbnd : K) (k : V) : PwPoly K V :=
  ⟨p.xk, p.n + 1, integStep p.xk (searchsorted p.xk lbnd)
    (lbnd - p.xk0.getD (searchsorted p.xk lbnd) 0) p.c k⟩

theorem mem_getD_length {c : List (List V)} {n : ℕ} (h : ∀ i < c.length, (c.getD i []).length = n) :
    ∀ l ∈ c, l.length = n := by
  intro l hl
  obtain ⟨j, hj, rfl⟩ := List.getElem_of_mem hl
  have := h j hj
  rwa [List.getD_eq_getElem _ _ hj] at this

theorem integOne_WF {p : PwPoly K V} (hp : WF p) (lbnd : K) (k : V) : WF (p.integOne lbnd k) := by
  obtain ⟨v, h1, h2, h3⟩ := integStep_getD p.xk (searchsorted p.xk lbnd)
    (lbnd - p.xk0.getD (searchsorted p.xk lbnd) 0) p.c k hp.len (searchsorted_le _ _)
  refine ⟨hp.ne, hp.inc, by simpa [integOne] using h2.trans hp.len, by simp [integOne], ?_⟩
  apply mem_getD_length
  intro i hi
  simp only [integOne] at hi ⊢
  rw [h2] at hi
  rw [h1 i hi, length_addHead]
  have := hp.piece_length (i := i) (by rw [hp.len] at hi; omega)
  simpa [integPiece, piece] using this

theorem integOne_isIntegral {p : PwPoly K V} (hp : WF p) (lbnd : K) (k : V) :
    IsIntegral p (p.integOne lbnd k) lbnd k := by
  obtain ⟨v, h1, h2, h3⟩ := integStep_getD p.xk (searchsorted p.xk lbnd)
    (lbnd - p.xk0.getD (searchsorted p.xk lbnd) 0) p.c k hp.len (searchsorted_le _ _)
  refine ⟨rfl, ?_, ?_, ?_⟩
  · intro i x j
    unfold pieceDeriv piece integOne
    simp only
    by_cases hi : i < p.c.length
    · rw [h1 i hi, polyDeriv_addHead_succ, polyDeriv_integPiece_succ]
    · rw [List.getD_eq_default _ _ (by omega), List.getD_eq_default _ _ (by omega)]
      simp [polyDeriv]
  · intro j hj
    have hlen := hp.len
    simp only [integOne] at hj
    unfold MatchAt pieceDeriv piece integOne
    simp only
    rw [h1 j (by omega), h1 (j + 1) (by omega), polyDeriv_zero, polyDeriv_zero,
      polyVal_addHead _ _ _ (by simp [integPiece]), polyVal_addHead _ _ _ (by simp [integPiece])]
    have o1 : p.xk.getD j 0 - origin p.xk (j + 1) = 0 := by simp [origin]
    rw [o1, polyVal_at_zero (integPiece K _)]
    cases j with
    | zero =>
      have o0 : p.xk.getD 0 0 - origin p.xk 0 = 0 := by simp [origin]
      rw [o0, polyVal_at_zero]
      simp [integPiece, stepSum]
    | succ j =>
      rw [stepSum_succ, getD_map_ne _ _ _ (by omega) []]
      simp only [origin, Nat.add_sub_cancel]
      simp only [integPiece, List.getD_cons_zero]
      abel
  · intro i hi
    have : searchsorted p.xk lbnd = i := hi.eq_searchsorted
    subst this
    unfold pieceVal piece integOne
    simp only
    rw [← mkXk0_getD hp.ne]
    exact h3

theorem foldl_integStep (p : PwPoly K V) (lbnd : K) (ks : List V) :
    (⟨p.xk, p.n + ks.length, ks.foldl (integStep p.xk (searchsorted p.xk lbnd)
      (lbnd - p.xk0.getD (searchsorted p.xk lbnd) 0)) p.c⟩ : PwPoly K V) =
    ks.foldl (fun q k => q.integOne lbnd k) p := by
  induction ks generalizing p with
  | nil => cases p; simp
  | cons k ks ih =>
    simp only [List.foldl_cons, List.length_cons]
    rw [← ih]
    simp only [integOne, xk0, mkXk0]
    congr 1; omega

theorem foldl_integOne {p : PwPoly K V} (hp : WF p) (lbnd : K) (ks : List V) :
    WF (ks.foldl (fun q k => q.integOne lbnd k) p) ∧
    IsIntegrals lbnd p ks (ks.foldl (fun q k => q.integOne lbnd k) p) := by
  induction ks generalizing p with
  | nil => exact ⟨hp, .done p⟩
  | cons k ks ih =>
    obtain ⟨h1, h2⟩ := ih (integOne_WF hp lbnd k)
    exact ⟨h1, .step (integOne_isIntegral hp lbnd k) h2⟩

end Npplus.PwPoly
