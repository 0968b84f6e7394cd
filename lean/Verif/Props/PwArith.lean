import Verif.Lemmas.PwArith
import Mathlib.Data.Rat.Defs
import Mathlib.Algebra.Field.Rat
import Mathlib.Algebra.Order.Ring.Rat
import Mathlib.Algebra.Algebra.Rat

/-!
# Properties C14 - C18: knots and arithmetic of piecewise polynomials
-/

set_option linter.unusedSectionVars false
namespace Npplus
open Spec PwPoly

variable {K : Type} [Field K] [LinearOrder K] [IsStrictOrderedRing K]
variable {V : Type} [AddCommGroup V] [Module K V]

/-! ## C15 allknots -/

/-- The loop of `allknots` on any number of arguments. -/
theorem allknotsGo_spec {tol : K} (ht : 0 ≤ tol) (args : List (List K)) (ha : ∀ a ∈ args, Knots a) :
    ∀ (xk : List K) (b : Bool), Knots xk → ∃ u b', allknotsGo tol (xk, b) args = .ok (u, b') ∧ Knots u ∧
      (∀ z ∈ u, z ∈ xk ∨ ∃ a ∈ args, z ∈ a) ∧
      ((∀ a ∈ args, a.length ≤ xk.length) → xk ⊆ u) ∧
      ((∀ a ∈ args, a = xk) → u = xk ∧ b' = b) ∧
      (∀ D, (∀ y z, (y ∈ xk ∨ ∃ a ∈ args, y ∈ a) → (z ∈ xk ∨ ∃ a ∈ args, z ∈ a) →
        y - z ≤ D ∧ 1 + |y| ≤ D ∧ (y = z ∨ tol * D < |y - z|)) →
        ∀ z, (z ∈ xk ∨ ∃ a ∈ args, z ∈ a) → z ∈ u) := by
  induction args with
  | nil =>
    intro xk b hx
    exact ⟨xk, b, rfl, hx, fun z hz => Or.inl hz, fun _ z hz => hz, fun _ => ⟨rfl, rfl⟩,
      fun D _ z hz => by simpa using hz⟩
  | cons yk args ih =>
    intro xk b hx
    have hy := ha yk (by simp)
    -- separation of the pair from the global separation
    have sep : ∀ D, (∀ y z, (y ∈ xk ∨ ∃ a ∈ yk :: args, y ∈ a) → (z ∈ xk ∨ ∃ a ∈ yk :: args, z ∈ a) →
        y - z ≤ D ∧ 1 + |y| ≤ D ∧ (y = z ∨ tol * D < |y - z|)) → Separated tol D xk yk := by
      intro D h
      obtain ⟨x0, hx0⟩ := List.exists_mem_of_ne_nil _ hx.ne
      refine ⟨?_, ?_, ?_, ?_, ?_⟩
      · have := (h x0 x0 (Or.inl hx0) (Or.inl hx0)).1; simpa using this
      · intro j hj
        exact (h _ _ (Or.inl (List.getElem_mem _)) (Or.inl (List.getElem_mem _))).1
      · intro j hj
        exact (h _ _ (Or.inr ⟨yk, by simp, List.getElem_mem _⟩) (Or.inr ⟨yk, by simp, List.getElem_mem _⟩)).1
      · intro _ _ y hy'
        exact (h y y (Or.inr ⟨yk, by simp, hy'⟩) (Or.inr ⟨yk, by simp, hy'⟩)).2.1
      · intro x hx' y hy'
        exact (h x y (Or.inl hx') (Or.inr ⟨yk, by simp, hy'⟩)).2.2
    rcases allknotsStep_spec ht hx hy with ⟨h1, h2⟩ | ⟨w, h1, hw, hne, hsub, hxs, hys, _, _⟩
    · obtain ⟨u, b', e, hu, hs, hl, hid, hD⟩ := ih (fun a h => ha a (by simp [h])) xk b hx
      refine ⟨u, b', by simp only [allknotsGo, h1]; exact e, hu, ?_, ?_, ?_, ?_⟩
      · intro z hz
        rcases hs z hz with h | ⟨a, h, h'⟩
        · exact Or.inl h
        · exact Or.inr ⟨a, by simp [h], h'⟩
      · intro h; exact hl fun a h' => h a (by simp [h'])
      · intro h; exact hid fun a h' => h a (by simp [h'])
      · intro D h z hz
        obtain ⟨r, hr, hmem⟩ := allknotsStep_separated ht hx hy (sep D h)
        rw [h1] at hr; cases hr
        simp only [Option.getD_none] at hmem
        refine hD D (fun y z h3 h4 => h y z ?_ ?_) z ?_
        · exact h3.imp id fun ⟨a, h5, h6⟩ => ⟨a, by simp [h5], h6⟩
        · exact h4.imp id fun ⟨a, h5, h6⟩ => ⟨a, by simp [h5], h6⟩
        · rcases hz with hz | ⟨a, h5, h6⟩
          · exact Or.inl hz
          · rcases List.mem_cons.mp h5 with rfl | h5
            · exact Or.inl ((hmem z).mpr (Or.inr h6))
            · exact Or.inr ⟨a, h5, h6⟩
    · obtain ⟨u, b', e, hu, hs, hl, hid, hD⟩ := ih (fun a h => ha a (by simp [h])) w true hw
      refine ⟨u, b', by simp only [allknotsGo, h1]; exact e, hu, ?_, ?_, ?_, ?_⟩
      · intro z hz
        rcases hs z hz with h | ⟨a, h, h'⟩
        · rcases hsub z h with h | h
          · exact Or.inl h
          · exact Or.inr ⟨yk, by simp, h⟩
        · exact Or.inr ⟨a, by simp [h], h'⟩
      · intro h
        have hxw := hxs (h yk (by simp))
        refine fun z hz => hl ?_ (hxw hz)
        intro a h'
        have hn : xk.Nodup := hx.inc.imp fun h => ne_of_lt h
        exact (h a (by simp [h'])).trans (hn.subperm hxw).length_le
      · intro h; exact absurd (h yk (by simp)).symm hne
      · intro D h z hz
        obtain ⟨r, hr, hmem⟩ := allknotsStep_separated ht hx hy (sep D h)
        rw [h1] at hr; cases hr
        simp only [Option.getD_some] at hmem
        have conv : ∀ y, (y ∈ w ∨ ∃ a ∈ args, y ∈ a) → (y ∈ xk ∨ ∃ a ∈ yk :: args, y ∈ a) := by
          intro y hy
          rcases hy with hy | ⟨a, h5, h6⟩
          · rcases (hmem y).mp hy with h' | h'
            · exact Or.inl h'
            · exact Or.inr ⟨yk, by simp, h'⟩
          · exact Or.inr ⟨a, by simp [h5], h6⟩
        refine hD D (fun y z h3 h4 => h y z (conv y h3) (conv z h4)) z ?_
        rcases hz with hz | ⟨a, h5, h6⟩
        · exact Or.inl ((hmem z).mpr (Or.inl hz))
        · rcases List.mem_cons.mp h5 with rfl | h5
          · exact Or.inl ((hmem z).mpr (Or.inr h6))
          · exact Or.inr ⟨a, h5, h6⟩

/-- **C15** (partial: `p`'s own knots may be replaced by a close knot of a longer argument, see
`C15_own_knot_lost`).  For any number of knot arrays and any `tol ≥ 0` the result of `allknots` is
strictly increasing and not empty, contains nothing but knots of `p` and of the arguments, contains
all of `p`'s knots if no argument is longer, is `p`'s own knot array if the arguments add nothing, and
is exactly the union when different knots differ by more than `tol` times the extent `D`. -/
theorem C15_allknots_partial {p : PwPoly K V} (hp : WF p) {tol : K} (ht : 0 ≤ tol)
    (args : List (List K)) (ha : ∀ a ∈ args, Knots a) :
    ∃ u, p.allknots tol args = .ok u ∧ Knots u ∧
      (∀ z ∈ u, z ∈ p.xk ∨ ∃ a ∈ args, z ∈ a) ∧
      ((∀ a ∈ args, a.length ≤ p.xk.length) → p.xk ⊆ u) ∧
      ((∀ a ∈ args, a = p.xk) → u = p.xk) ∧
      (∀ D, (∀ y z, (y ∈ p.xk ∨ ∃ a ∈ args, y ∈ a) → (z ∈ p.xk ∨ ∃ a ∈ args, z ∈ a) →
        y - z ≤ D ∧ 1 + |y| ≤ D ∧ (y = z ∨ tol * D < |y - z|)) →
        ∀ z, z ∈ u ↔ (z ∈ p.xk ∨ ∃ a ∈ args, z ∈ a)) := by
  obtain ⟨u, b, e, h1, h2, h3, h4, h5⟩ := allknotsGo_spec ht args ha p.xk false hp.knots
  refine ⟨u, by simp [allknots, e, Except.map], h1, h2, h3, fun h => (h4 h).1, fun D h z => ⟨h2 z, h5 D h z⟩⟩

/-- **C15, what happens to a knot that is left out**: with one argument, every knot of `p` or of the
argument which is not in the result is within `tol` times the widest interval `D` of one that is. -/
theorem C15_dropped_are_close {p : PwPoly K V} (hp : WF p) {tol D : K} (ht : 0 ≤ tol) (hD : 0 ≤ D)
    {yk : List K} (hy : Knots yk) (h1 : GapsLE D p.xk) (h2 : GapsLE D yk)
    (h3 : 1 < p.xk.length ∨ 1 < yk.length) :
    ∃ u, p.allknots tol [yk] = .ok u ∧
      ∀ z, z ∈ p.xk ∨ z ∈ yk → z ∉ u → ∃ w ∈ u, |z - w| ≤ tol * D := by
  rcases allknotsStep_spec ht hp.knots hy with ⟨e, h⟩ | ⟨u, e, _, _, _, _, _, _, hd⟩
  · refine ⟨p.xk, by simp [allknots, allknotsGo, e, Except.map], fun z hz hzu => ?_⟩
    rcases h with h | ⟨x, y, h4, h5, _⟩
    · rw [h] at hzu
      rw [h] at hz; simp at hz; exact absurd hz hzu
    · rw [h4, h5] at h3; simp at h3
  · refine ⟨u, by simp [allknots, allknotsGo, e, Except.map], fun z hz hzu => ?_⟩
    obtain ⟨w, hw, hwd, _⟩ := hd D hD h1 h2 z hz hzu
    exact ⟨w, hw, hwd⟩

/-- The claim that `allknots` contains `p`'s knots is false: a longer argument wins. -/
theorem C15_own_knot_lost : ∃ (p : PwPoly ℚ ℚ) (yk : List ℚ), WF p ∧ Knots yk ∧
    ∃ u, p.allknots (defaultTol ℚ) [yk] = .ok u ∧ ∃ z ∈ p.xk, z ∉ u := by
  refine ⟨⟨[0], 1, [[0], [1]]⟩, [1/10000000, 1], ⟨by decide, by decide +kernel, rfl, by decide,
    by decide +kernel⟩, ⟨by decide, by decide +kernel⟩, [1/10000000, 1], by decide +kernel, 0,
    by decide +kernel, by decide +kernel⟩

example : (⟨[0, 2], 1, [[0], [1], [2]]⟩ : PwPoly ℚ ℚ).allknots (defaultTol ℚ) [[1], [-1, 0, 3]] =
    .ok [-1, 0, 1, 2, 3] := by decide +kernel

/-! ## C14 addknots -/

/-- **C14** (partial: exact when no knot of `p` was merged away, which is guaranteed when the new array
is not longer than `p`'s or when the knots are separated; see `C14_refuted`).
`p.addknots(xk)` gives a PwPoly with knots from the union, and at every `x` whose interval contains no
merged knot, inside or outside the knots, value and all derivatives are those of `p`. -/
theorem C14_addknots_partial {p : PwPoly K V} (hp : WF p) {tol : K} (ht : 0 ≤ tol) {xk : List K}
    (hx : Knots xk) :
    ∃ r, p.addknots tol xk = .ok r ∧ WF r ∧ r.n = p.n ∧
      (∀ z ∈ r.xk, z ∈ p.xk ∨ z ∈ xk) ∧
      (∀ x, (∀ k ∈ p.xk, k ∉ r.xk → ¬ SameInterval r.xk x k) → r.call x = p.call x ∧
        ∀ i j k, InPiece r.xk i x → InPiece p.xk j x → pieceDeriv r i x k = pieceDeriv p j x k) ∧
      (xk.length ≤ p.xk.length → p.xk ⊆ r.xk) ∧
      (∀ D, Separated tol D p.xk xk → ∀ z, z ∈ r.xk ↔ z ∈ p.xk ∨ z ∈ xk) := by
  have self : (∀ x, (∀ k ∈ p.xk, k ∉ p.xk → ¬ SameInterval p.xk x k) → p.call x = p.call x ∧
        ∀ i j k, InPiece p.xk i x → InPiece p.xk j x → pieceDeriv p i x k = pieceDeriv p j x k) := by
    intro x _
    refine ⟨rfl, fun i j k h1 h2 => ?_⟩
    rw [← h1.eq_searchsorted, ← h2.eq_searchsorted]
  rcases allknotsStep_spec ht hp.knots hx with ⟨e, h⟩ | ⟨u, e, hu, _, hsub, hl, _, _, _⟩
  · refine ⟨p, by simp [addknots, allknotsGo, e], hp, rfl, fun z hz => Or.inl hz, self,
      fun _ z hz => hz, fun D hD z => ?_⟩
    obtain ⟨r, hr, hmem⟩ := allknotsStep_separated ht hp.knots hx hD
    rw [e] at hr; cases hr
    simpa using hmem z
  · by_cases hlen : u.length = p.xk.length
    · refine ⟨p, by simp [addknots, allknotsGo, e, hlen], hp, rfl, fun z hz => Or.inl hz, self,
        fun _ z hz => hz, fun D hD z => ?_⟩
      obtain ⟨r, hr, hmem⟩ := allknotsStep_separated ht hp.knots hx hD
      rw [e] at hr; cases hr
      simp only [Option.getD_some] at hmem
      refine ⟨fun h => Or.inl h, fun h => ?_⟩
      have hn : p.xk.Nodup := hp.inc.imp fun h => ne_of_lt h
      have hs : p.xk ⊆ u := fun z hz => (hmem z).mpr (Or.inl hz)
      have := (hn.subperm hs).perm_of_length_le (by omega)
      exact this.mem_iff.mpr ((hmem z).mpr h)
    · refine ⟨p.addknotsRaw u, by simp [addknots, allknotsGo, e, hlen], addknotsRaw_WF hp hu, rfl,
        hsub, fun x hd => ⟨addknotsRaw_call hp hu x hd, fun i j k h1 h2 => ?_⟩, hl, fun D hD z => ?_⟩
      · rw [addknotsRaw_pieceDeriv hp hu i h1.1,
          srcPiece_eq hp hu h1 (fun k hk hku hin => hd k hk hku ⟨i, h1, hin⟩), h2.eq_searchsorted]
      · obtain ⟨r, hr, hmem⟩ := allknotsStep_separated ht hp.knots hx hD
        rw [e] at hr; cases hr
        exact hmem z

/-- Clean form: if no knot of `p` is lost the function is unchanged at every `x`. -/
theorem C14_addknots_same_function {p r : PwPoly K V} (hp : WF p) {tol : K} (ht : 0 ≤ tol)
    {xk : List K} (hx : Knots xk) (h : p.addknots tol xk = .ok r) (hk : p.xk ⊆ r.xk) (x : K) :
    r.call x = p.call x := by
  obtain ⟨r', e, _, _, _, h5, _⟩ := C14_addknots_partial hp ht hx
  rw [h] at e; cases e
  exact (h5 x fun k hk' hkr => absurd (hk hk') hkr).1

/-- `addknots` does change the function when one of `p`'s knots is merged with a close new knot. -/
theorem C14_refuted : ∃ (p r : PwPoly ℚ ℚ) (xk : List ℚ) (x : ℚ), WF p ∧ Knots xk ∧
    p.addknots (defaultTol ℚ) xk = .ok r ∧ r.call x ≠ p.call x := by
  refine ⟨⟨[0], 1, [[0], [1]]⟩, ⟨[1/10000000, 1], 1, [[0], [1], [1]]⟩, [1/10000000, 1], 1/20000000,
    ⟨by decide, by decide +kernel, rfl, by decide, by decide +kernel⟩,
    ⟨by decide, by decide +kernel⟩, by decide +kernel, by decide +kernel⟩

example : (⟨[0, 2], 2, [[0, 0], [0, 1], [2, 3]]⟩ : PwPoly ℚ ℚ).addknots (defaultTol ℚ) [1, 3] =
    .ok ⟨[0, 1, 2, 3], 2, [[0, 0], [0, 1], [1, 1], [2, 3], [5, 3]]⟩ := by decide +kernel

/-! ## C16 sum, difference, negation -/

/-- What a binary operator promises: a well formed result with knots from the two operands whose value
is the operation on values at every `x` in an interval without merged knots; no knot is merged when the
knots are separated. -/
def PointwiseOp {W X : Type} [AddCommGroup W] [Module K W] [AddCommGroup X] [Module K X]
    (p : PwPoly K V) (q : PwPoly K W) (r : PwPoly K X) (f : V → W → X) : Prop :=
  WF r ∧ (∀ z ∈ r.xk, z ∈ p.xk ∨ z ∈ q.xk) ∧
  ((p.xk = q.xk ∨ 1 < p.xk.length ∨ 1 < q.xk.length ∨ (p.xk ⊆ r.xk ∧ q.xk ⊆ r.xk)) →
    ∀ x, (∀ k, k ∈ p.xk ∨ k ∈ q.xk → k ∉ r.xk → ¬ SameInterval r.xk x k) →
      r.call x = f (p.call x) (q.call x)) ∧
  ∀ D, Separated (defaultTol K) D p.xk q.xk → p.xk ⊆ r.xk ∧ q.xk ⊆ r.xk

theorem binary_pointwise {p q : PwPoly K V} (hp : WF p) (hq : WF q) (f : V → V → V)
    (hf : ∀ (a b c d : V) (t : K), f (a + t • b) (c + t • d) = f a c + t • f b d) (h0 : f 0 0 = 0) :
    ∃ a b, binary p q = .ok (a, b) ∧ a.n = max p.n q.n ∧
      PointwiseOp p q ⟨a.xk, a.n, List.zipWith (List.zipWith f) a.c b.c⟩ f := by
  obtain ⟨a, b, e, hc⟩ := binary_spec hp hq
  obtain ⟨n1, n2⟩ := binary_n hp hq hc
  have pp := padTo_WF hp (max p.deg q.deg) (le_max_left _ _)
  have pq := padTo_WF hq (max p.deg q.deg) (le_max_right _ _)
  have hsub := hc.sub
  have hloc := hc.loc
  have hkeep := hc.keep
  rw [pp.2.2, pq.2.2] at hsub hloc hkeep
  have hn : a.n = b.n := by rw [n1, n2]
  refine ⟨a, b, e, n1, zipWith_WF hc.wa hc.wb hn hc.len f, hsub, ?_, hkeep⟩
  intro h x hx
  obtain ⟨l1, l2⟩ := hloc h
  obtain ⟨c1, c2⟩ := l2 x hx
  rw [zipWith_call hc.wa hc.wb hn l1 f hf h0, c1, c2, padTo_call hp _ (le_max_left _ _),
    padTo_call hq _ (le_max_right _ _)]

/-- **C16** (partial: exact away from merged knots; see `C16_refuted`), sum. -/
theorem C16_add_partial {p q : PwPoly K V} (hp : WF p) (hq : WF q) :
    ∃ r, p.add q = .ok r ∧ r.n = max p.n q.n ∧ PointwiseOp p q r (· + ·) := by
  obtain ⟨a, b, e, hn, h⟩ := binary_pointwise hp hq (· + ·) (fun a b c d t => by module) (by simp)
  exact ⟨⟨a.xk, a.n, List.zipWith (List.zipWith (· + ·)) a.c b.c⟩, by simp only [add, e, Except.map], hn, h⟩

/-- **C16** (partial, as for the sum), difference. -/
theorem C16_sub_partial {p q : PwPoly K V} (hp : WF p) (hq : WF q) :
    ∃ r, p.sub q = .ok r ∧ r.n = max p.n q.n ∧ PointwiseOp p q r (· - ·) := by
  obtain ⟨a, b, e, hn, h⟩ := binary_pointwise hp hq (· - ·) (fun a b c d t => by module) (by simp)
  exact ⟨⟨a.xk, a.n, List.zipWith (List.zipWith (· - ·)) a.c b.c⟩, by simp only [sub, e, Except.map], hn, h⟩

/-- **C16**, negation, everywhere. -/
theorem C16_neg {p : PwPoly K V} (hp : WF p) : WF p.neg ∧ p.neg.xk = p.xk ∧
    ∀ x, p.neg.call x = - p.call x := by
  have hw : WF p.neg := by
    refine ⟨hp.ne, hp.inc, by simpa [neg] using hp.len, hp.pos, ?_⟩
    intro l hl
    simp only [neg, List.mem_map] at hl
    obtain ⟨m, hm, rfl⟩ := hl
    simpa [neg] using hp.row m hm
  refine ⟨hw, rfl, fun x => ?_⟩
  rw [call_eq hw, call_eq hp]
  unfold pieceVal piece neg
  simp only
  have h1 := searchsorted_le p.xk x
  rw [getD_map_ne _ _ _ (by rw [hp.len]; omega) []]
  generalize p.c.getD (searchsorted p.xk x) [] = l
  induction l with
  | nil => simp
  | cons a l ih => simp only [List.map_cons, polyVal_cons, ih]; module

/-- The reading one wants: with separated (or equal) knots, `p+q`, `p-q` are pointwise at every `x`. -/
theorem C16_separated {p q : PwPoly K V} (hp : WF p) (hq : WF q) {D : K}
    (hD : Separated (defaultTol K) D p.xk q.xk) :
    ∃ r s, p.add q = .ok r ∧ p.sub q = .ok s ∧
      ∀ x, r.call x = p.call x + q.call x ∧ s.call x = p.call x - q.call x := by
  obtain ⟨r, e1, _, h1⟩ := C16_add_partial hp hq
  obtain ⟨s, e2, _, h2⟩ := C16_sub_partial hp hq
  refine ⟨r, s, e1, e2, fun x => ⟨?_, ?_⟩⟩
  · have hk := h1.2.2.2 D hD
    exact h1.2.2.1 (Or.inr (Or.inr (Or.inr hk))) x fun k hk' hkr =>
      absurd (hk'.elim (fun h => hk.1 h) (fun h => hk.2 h)) hkr
  · have hk := h2.2.2.2 D hD
    exact h2.2.2.1 (Or.inr (Or.inr (Or.inr hk))) x fun k hk' hkr =>
      absurd (hk'.elim (fun h => hk.1 h) (fun h => hk.2 h)) hkr

/-- The hypotheses of `C16_separated` are met by ordinary arrays. -/
example : Separated (defaultTol ℚ) 10 [0, 2, 3] [1, 3, 7] := by
  refine ⟨by decide +kernel, ?_, ?_, by decide +kernel, by decide +kernel⟩ <;>
  · intro j h
    have : j = 0 ∨ j = 1 := by simp at h; omega
    rcases this with rfl | rfl <;> simp <;> norm_num

/-- Two one-knot functions with knots `0` and `1e-7`: the sum is not the sum of values, even far away
(the second operand is silently shifted). -/
theorem C16_refuted : ∃ (p q r : PwPoly ℚ ℚ) (x : ℚ), WF p ∧ WF q ∧ p.add q = .ok r ∧
    r.call x ≠ p.call x + q.call x := by
  refine ⟨⟨[0], 2, [[0, 0], [0, 0]]⟩, ⟨[1/10000000], 2, [[0, 1], [0, 1]]⟩,
    ⟨[0], 2, [[0, 1], [0, 1]]⟩, 5,
    ⟨by decide, by decide +kernel, rfl, by decide, by decide +kernel⟩,
    ⟨by decide, by decide +kernel, rfl, by decide, by decide +kernel⟩,
    by decide +kernel, by decide +kernel⟩

example : (⟨[0, 2], 2, [[0, 0], [0, 1], [2, 3]]⟩ : PwPoly ℚ ℚ).add ⟨[1], 1, [[5], [7]]⟩ =
    .ok ⟨[0, 1, 2], 2, [[5, 0], [5, 1], [8, 1], [9, 3]]⟩ := by decide +kernel

/-! ## C17 product -/

section product
variable {R : Type} [CommRing R] [Algebra K R]

/-- **C17** (partial: exact away from merged knots, as for C16).  The product is pointwise and its
degree is the sum of the degrees. -/
theorem C17_mul_partial {p q : PwPoly K R} (hp : WF p) (hq : WF q) :
    ∃ r, p.mul q = .ok r ∧ r.deg = p.deg + q.deg ∧ PointwiseOp p q r (· * ·) := by
  obtain ⟨a, b, e, hc⟩ := commonKnots_spec hp hq
  have h1 := hc.wa.pos
  have h2 := hc.wb.pos
  have hna := hc.na
  have hnb := hc.nb
  unfold mul
  simp only [e, Except.map]
  refine ⟨_, rfl, ?_⟩
  split
  · refine ⟨by simp only [deg]; omega, ?_, hc.sub, ?_, hc.keep⟩
    · have := mulPiece_WF hc.wb hc.wa hc.len.symm
      exact ⟨hc.wa.ne, hc.wa.inc, by simp [hc.len, hc.wa.len], this.pos, this.row⟩
    · intro h x hx
      obtain ⟨l1, l2⟩ := hc.loc h
      obtain ⟨c1, c2⟩ := l2 x hx
      have := mulPiece_call hc.wb hc.wa l1.symm x
      rw [l1] at this
      rw [this, c1, c2, mul_comm]
  · refine ⟨by simp only [deg]; omega, mulPiece_WF hc.wa hc.wb hc.len, hc.sub, ?_, hc.keep⟩
    intro h x hx
    obtain ⟨l1, l2⟩ := hc.loc h
    obtain ⟨c1, c2⟩ := l2 x hx
    rw [mulPiece_call hc.wa hc.wb l1, c1, c2]

/-- With separated knots the product is pointwise at every `x`. -/
theorem C17_separated {p q : PwPoly K R} (hp : WF p) (hq : WF q) {D : K}
    (hD : Separated (defaultTol K) D p.xk q.xk) :
    ∃ r, p.mul q = .ok r ∧ ∀ x, r.call x = p.call x * q.call x := by
  obtain ⟨r, e1, _, h1⟩ := C17_mul_partial hp hq
  refine ⟨r, e1, fun x => ?_⟩
  have hk := h1.2.2.2 D hD
  exact h1.2.2.1 (Or.inr (Or.inr (Or.inr hk))) x fun k hk' hkr =>
    absurd (hk'.elim (fun h => hk.1 h) (fun h => hk.2 h)) hkr

example : (⟨[0, 2], 2, [[0, 0], [0, 1], [2, 3]]⟩ : PwPoly ℚ ℚ).mul ⟨[0, 2], 1, [[5], [7], [2]]⟩ =
    .ok ⟨[0, 2], 2, [[0, 0], [0, 7], [4, 6]]⟩ := by decide +kernel

/-! ## C18 scalar operands -/

/-- **C18, what is true** (partial): dividing by a PwPoly raises TypeError; operators between two PwPoly
do not depend on which operand's method Python calls. -/
theorem C18_scalar_partial [Div R] {p q : PwPoly K R} (hp : WF p) (hq : WF q) :
    p.divOp (.pw q) = .error .typeError ∧ p.addOp (.pw q) = p.add q ∧ p.subOp (.pw q) = p.sub q ∧
      p.mulOp (.pw q) = p.mul q := by
  obtain ⟨a, b, e, _⟩ := binary_spec hp hq
  refine ⟨?_, rfl, rfl, rfl⟩
  simp [divOp, e, bind, Except.bind]

/-- **C18, refuted.** Every operator with a number operand raises TypeError, for every `p` and number:
`_binary` calls the module's one-argument `asfarray` with a `dtype` keyword. -/
theorem C18_scalar_refuted [Div R] (p : PwPoly K R) (v : R) :
    p.addOp (.num v) = .error .typeError ∧ p.subOp (.num v) = .error .typeError ∧
    p.rsubOp v = .error .typeError ∧ p.mulOp (.num v) = .error .typeError ∧
    p.divOp (.num v) = .error .typeError :=
  ⟨rfl, rfl, rfl, rfl, rfl⟩

end product
end Npplus
