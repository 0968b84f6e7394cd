import Verif.Model.PerArith
import Verif.Lemmas.SplfitPerCore
import Verif.Props.PwArith
import Verif.Props.PwMisc

/-!
# Property C82: arithmetic and knots of periodic functions
-/

set_option linter.unusedSectionVars false
namespace Npplus
open Spec PwPoly Fit

section
variable {K : Type} [Field K] [LinearOrder K] [IsStrictOrderedRing K] [FloorRing K]
variable {V : Type} [AddCommGroup V] [Module K V]

theorem except_ok_bind {α β : Type} (a : α) (f : α → Except PyErr β) : (Except.ok a >>= f) = f a := rfl

/-- The value at a point of the first period `x0 ≤ x < xl`, from the pieces between the knots only. -/
def inner (p : PwPoly K V) (x : K) : V := pieceVal p (max (searchsorted p.xk x) 1) x

/-- A well formed object with ends `x0`, `xl` whose pieces between the knots are the function `f`. -/
structure Rep (p : PwPoly K V) (x0 xl : K) (f : K → V) : Prop where
  wf : WF p
  two : 2 ≤ p.xk.length
  first : p.xk.getD 0 0 = x0
  last : p.xk.getD (p.xk.length - 1) 0 = xl
  val : ∀ x, x0 ≤ x → x < xl → inner p x = f x

theorem ss_lt_length {u : List K} (hu : u.Pairwise (· < ·)) (h2 : 2 ≤ u.length) {x : K} (hx : x < u.getD (u.length - 1) 0) :
    searchsorted u x < u.length := by
  have hi := inPiece_searchsorted hu x
  rcases Nat.lt_or_ge (searchsorted u x) u.length with h | h
  · exact h
  · have := hi.2.1 (u.length - 1) (by omega) (by omega)
    rw [List.getD_eq_getElem _ _ (by omega)] at hx
    exact absurd this (not_lt.2 hx.le)

theorem Rep.new {p : PwPoly K V} {x0 xl : K} {f : K → V} (h : Rep p x0 xl f) : ∃ P, PerPwPoly.new p = .ok P ∧ Rep P.base x0 xl f ∧
    P.base.n = p.n ∧ P.base.xk = p.xk ∧ P.period = some (xl - x0) := by
  have hnew : ∃ P, PerPwPoly.new p = .ok P ∧ P.period = some (xl - x0) := by
    unfold PerPwPoly.new
    rw [if_neg (by have := h.two; omega)]
    exact ⟨_, rfl, by rw [← h.first, ← h.last]⟩
  obtain ⟨P, hP, hper⟩ := hnew
  obtain ⟨h2, hwf, hxk, hn, hpc, _⟩ := perNew_fun h.wf hP
  refine ⟨P, hP, ⟨hwf, by rw [hxk]; exact h2, by rw [hxk]; exact h.first, by rw [hxk]; exact h.last, fun x hx0 hxl => ?_⟩, hn, hxk, hper⟩
  rw [← h.val x hx0 hxl]
  have hlt := ss_lt_length h.wf.inc h2 (x := x) (by rw [h.last]; exact hxl)
  unfold inner pieceVal
  rw [hxk]
  obtain ⟨j, hj⟩ : ∃ j, max (searchsorted p.xk x) 1 = j + 1 := ⟨max (searchsorted p.xk x) 1 - 1, by omega⟩
  rw [hj, hpc j (by omega)]

theorem Rep.call {P : PerPwPoly K V} {x0 xl : K} {f : K → V} {p : PwPoly K V} (h : Rep p x0 xl f) (hP : PerPwPoly.new p = .ok P) (x : K) :
    P.call x = .ok (f (x0 + pmod (x - x0) (xl - x0))) := by
  obtain ⟨P', per, hP', hper, hpos, hpe, hwf, hcall, hval⟩ := (C23_periodic h.wf).2 h.two
  rw [hP] at hP'
  obtain rfl := Except.ok.inj hP'
  rw [h.first, h.last] at hval hpe
  rw [← hpe]
  have e : P.call x = P.call (x0 + pmod (x - x0) per) := by
    have := (hcall x (-⌊(x - x0) / per⌋)).1
    rw [← this]
    congr 1
    unfold pmod
    push_cast
    ring
  have hp0 : 0 ≤ pmod (x - x0) per := pmod_nonneg _ hpos
  have hp1 : pmod (x - x0) per < per := pmod_lt _ hpos
  rw [e]
  have a0 : x0 ≤ x0 + pmod (x - x0) per := by linarith
  have a1 : x0 + pmod (x - x0) per < xl := by linarith
  rw [(hval _ a0 a1 _ (inPiece_searchsorted h.wf.inc _)).1]
  have := h.val _ a0 a1
  unfold inner at this
  rw [this]

theorem Rep.pad {p : PwPoly K V} {x0 xl : K} {f : K → V} (h : Rep p x0 xl f) {nd : ℕ} (hd : p.deg ≤ nd) : Rep (p.padTo nd) x0 xl f := by
  obtain ⟨h1, _, h3⟩ := padTo_WF h.wf nd hd
  refine ⟨h1, by rw [h3]; exact h.two, by rw [h3]; exact h.first, by rw [h3]; exact h.last, fun x hx0 hxl => ?_⟩
  rw [← h.val x hx0 hxl]
  have hlt := ss_lt_length h.wf.inc h.two (x := x) (by rw [h.last]; exact hxl)
  unfold inner pieceVal
  rw [h3]
  unfold padTo
  split
  · unfold piece
    have := h.two
    rw [getD_map_ne _ _ _ (by rw [h.wf.len]; omega) [], polyVal_append, polyVal_replicate_zero,
      smul_zero, add_zero]
  · rfl

/-- the first and the last of a set of knots -/
theorem knots_first {u : List K} (hu : Knots u) {a : K} (ha : a ∈ u) (h : ∀ z ∈ u, a ≤ z) : u.getD 0 0 = a := by
  have h1 : 1 ≤ u.length := List.length_pos_iff.mpr hu.ne
  refine le_antisymm (first_le hu.inc ha) ?_
  rw [List.getD_eq_getElem _ _ (by omega)]
  exact h _ (List.getElem_mem _)

theorem knots_last {u : List K} (hu : Knots u) {a : K} (ha : a ∈ u) (h : ∀ z ∈ u, z ≤ a) : u.getD (u.length - 1) 0 = a := by
  have h1 : 1 ≤ u.length := List.length_pos_iff.mpr hu.ne
  rw [List.getD_eq_getElem _ _ (by omega)]
  refine le_antisymm (h _ (List.getElem_mem _)) ?_
  obtain ⟨j, hj, rfl⟩ := List.getElem_of_mem ha
  rcases Nat.eq_or_lt_of_le (show j ≤ u.length - 1 by omega) with e | e
  · subst e; exact le_rfl
  · exact (List.pairwise_iff_getElem.mp hu.inc j _ hj (by omega) e).le

theorem Rep.addknots {p : PwPoly K V} {x0 xl : K} {f : K → V} (h : Rep p x0 xl f) {u : List K} (hu : Knots u) (hsub : p.xk ⊆ u)
    (h0 : ∀ z ∈ u, x0 ≤ z) (hl : ∀ z ∈ u, z ≤ xl) : Rep (p.addknotsRaw u) x0 xl f := by
  have hx0 : x0 ∈ u := by
    rw [← h.first, List.getD_eq_getElem _ _ (by have := h.two; omega)]; exact hsub (List.getElem_mem _)
  have hxl : xl ∈ u := by
    rw [← h.last, List.getD_eq_getElem _ _ (by have := h.two; omega)]; exact hsub (List.getElem_mem _)
  have hn : p.xk.Nodup := h.wf.inc.imp fun h => ne_of_lt h
  have h2 : 2 ≤ u.length := h.two.trans (hn.subperm hsub).length_le
  have e0 := knots_first hu hx0 h0
  have el := knots_last hu hxl hl
  refine ⟨addknotsRaw_WF h.wf hu, h2, e0, el, fun x hx hxlt => ?_⟩
  rw [← h.val x hx hxlt]
  have hss := ss_lt_length hu.inc h2 (x := x) (by rw [el]; exact hxlt)
  have hsrc : srcPiece p u (max (searchsorted u x) 1) = max (searchsorted p.xk x) 1 := by
    rcases hx.lt_or_eq with hlt | heq
    · have i1 : 1 ≤ searchsorted u x := by
        by_contra hc
        have hi := inPiece_searchsorted hu.inc x
        have := hi.2.2 0 (by omega) (by omega)
        rw [List.getD_eq_getElem _ _ (by omega)] at e0
        rw [e0] at this
        exact absurd this (not_le.2 hlt)
      have i2 : 1 ≤ searchsorted p.xk x := by
        by_contra hc
        have hi := inPiece_searchsorted h.wf.inc x
        have := hi.2.2 0 (by have := h.two; omega) (by omega)
        have e0 := h.first
        rw [List.getD_eq_getElem _ _ (by have := h.two; omega)] at e0
        rw [e0] at this
        exact absurd this (not_le.2 hlt)
      rw [max_eq_left i1, max_eq_left i2]
      exact srcPiece_eq h.wf hu (inPiece_searchsorted hu.inc x) fun k hk hku => absurd (hsub hk) hku
    · have j1 : searchsorted u x = 0 := by
        rw [searchsorted_eq_zero]; intro a ha; rw [← heq]; exact h0 a ha
      have j2 : searchsorted p.xk x = 0 := by
        rw [searchsorted_eq_zero]; intro a ha; rw [← heq]; exact h0 a (hsub ha)
      rw [j1, j2]
      show srcPiece p u 1 = 1
      have e1 : u.getD 0 0 < u.getD 1 0 := by
        rw [List.getD_eq_getElem _ _ (by omega), List.getD_eq_getElem _ _ (by omega)]
        exact List.pairwise_iff_getElem.mp hu.inc 0 1 (by omega) (by omega) (by omega)
      unfold srcPiece
      rw [if_neg (by omega), if_neg (by omega)]
      set mid : K := (1 / 2 : K) * (u.getD 1 0 + u.getD (1 - 1) 0) with hmid
      simp only [Nat.sub_self] at hmid
      refine (InPiece.eq_searchsorted (xk := p.xk) (x := mid) (i := 1) ⟨by have := h.two; omega, fun j hj hj1 => ?_, fun j hj hj1 => ?_⟩)
      · have : j = 0 := by omega
        subst this
        have := h.first
        rw [List.getD_eq_getElem _ _ (by omega)] at this
        rw [this, ← e0, hmid]; linarith
      · obtain ⟨b, hb, eb⟩ := List.getElem_of_mem (hsub (List.getElem_mem hj))
        have hgt : x0 < p.xk[j] := by
          have := h.first
          rw [List.getD_eq_getElem _ _ (by omega)] at this
          rw [← this]
          exact List.pairwise_iff_getElem.mp h.wf.inc 0 j (by omega) (by omega) (by omega)
        have hb1 : 1 ≤ b := by
          by_contra hc
          have : b = 0 := by omega
          subst this
          rw [← eb, ← e0, List.getD_eq_getElem _ _ hb] at hgt
          exact lt_irrefl _ hgt
        have : u.getD 1 0 ≤ u[b] := by
          rw [List.getD_eq_getElem _ _ (by omega)]
          rcases Nat.eq_or_lt_of_le hb1 with e | e
          · subst e; exact le_rfl
          · exact (List.pairwise_iff_getElem.mp hu.inc 1 b (by omega) hb e).le
        rw [← eb, hmid]; linarith
  have := addknotsRaw_pieceDeriv h.wf hu (max (searchsorted u x) 1) (by omega) x 0
  unfold pieceDeriv at this
  rw [polyDeriv_zero, polyDeriv_zero, hsrc] at this
  exact this

theorem Rep.zip {a b : PwPoly K V} {x0 xl : K} {f g : K → V} (ha : Rep a x0 xl f) (hb : Rep b x0 xl g) (hn : a.n = b.n) (hx : b.xk = a.xk)
    (op : V → V → V) (hf : ∀ (a b c d : V) (t : K), op (a + t • b) (c + t • d) = op a c + t • op b d) (h0 : op 0 0 = 0) :
    Rep (⟨a.xk, a.n, List.zipWith (List.zipWith op) a.c b.c⟩ : PwPoly K V) x0 xl fun x => op (f x) (g x) := by
  have hl : b.c.length = a.c.length := by rw [ha.wf.len, hb.wf.len, hx]
  refine ⟨zipWith_WF ha.wf hb.wf hn hl op, ha.two, ha.first, ha.last, fun x hx0 hxl => ?_⟩
  rw [← ha.val x hx0 hxl, ← hb.val x hx0 hxl]
  have hlt := ss_lt_length ha.wf.inc ha.two (x := x) (by rw [ha.last]; exact hxl)
  have h2 := ha.wf.len
  have := ha.two
  unfold inner pieceVal piece
  simp only [hx]
  rw [List.getD_eq_getElem _ _ (by simp; omega), List.getElem_zipWith,
    List.getD_eq_getElem _ _ (by omega), List.getD_eq_getElem _ _ (by omega),
    polyVal_zipWith op hf h0]
  rw [ha.wf.row _ (List.getElem_mem _), hb.wf.row _ (List.getElem_mem _), hn]

theorem Rep.mul {R : Type} [CommRing R] [Algebra K R] {a b : PwPoly K R} {x0 xl : K} {f g : K → R} (ha : Rep a x0 xl f) (hb : Rep b x0 xl g) (hx : b.xk = a.xk) :
    Rep (⟨a.xk, a.n + b.n - 1, List.zipWith mulPiece a.c b.c⟩ : PwPoly K R) x0 xl fun x => f x * g x := by
  have hl : b.c.length = a.c.length := by rw [ha.wf.len, hb.wf.len, hx]
  refine ⟨mulPiece_WF ha.wf hb.wf hl, ha.two, ha.first, ha.last, fun x hx0 hxl => ?_⟩
  rw [← ha.val x hx0 hxl, ← hb.val x hx0 hxl]
  have hlt := ss_lt_length ha.wf.inc ha.two (x := x) (by rw [ha.last]; exact hxl)
  have h2 := ha.wf.len
  have := ha.two
  unfold inner pieceVal piece
  simp only [hx]
  rw [List.getD_eq_getElem _ _ (by simp; omega), List.getElem_zipWith,
    List.getD_eq_getElem _ _ (by omega), List.getD_eq_getElem _ _ (by omega),
    (mulPiece_spec _ _ _ _).2]
  rw [ha.wf.row _ (List.getElem_mem _)]; exact ha.wf.pos

theorem new_true {p : PwPoly K V} {x0 xl : K} {f : K → V} (h : Rep p x0 xl f) : ∃ P : PerPwPoly K V, SplineOut.new true p = .ok (.per P) ∧
    PerPwPoly.new p = .ok P ∧ Rep P.base x0 xl f ∧ P.base.n = p.n ∧ P.base.xk = p.xk ∧ P.period = some (xl - x0) := by
  obtain ⟨P, h1, h2, h3, h4, h5⟩ := h.new
  refine ⟨P, ?_, h1, h2, h3, h4, h5⟩
  unfold SplineOut.new
  rw [if_pos rfl, h1]
  rfl

theorem common_per {A B : PerPwPoly K V} {x0 xl : K} {f g : K → V} (ha : Rep A.base x0 xl f) (hb : Rep B.base x0 xl g) {D : K}
    (hD : Separated (defaultTol K) D A.base.xk B.base.xk) :
    ∃ a b : PerPwPoly K V, SplineOut.common (.per A) (.per B) = .ok (.per a, .per b) ∧ Rep a.base x0 xl f ∧ Rep b.base x0 xl g ∧
      b.base.xk = a.base.xk ∧ a.base.n = A.base.n ∧ b.base.n = B.base.n ∧ (∀ z, z ∈ a.base.xk ↔ z ∈ A.base.xk ∨ z ∈ B.base.xk) := by
  have ht := defaultTol_nonneg (K := K)
  obtain ⟨r, hr, hmem⟩ := allknotsStep_separated ht ha.wf.knots hb.wf.knots hD
  rcases allknotsGo_one ht ha.wf.knots hb.wf.knots with ⟨h1, h2⟩ | ⟨u, h1, hst, hu, hsub⟩
  · have e : A.base.xk = B.base.xk := by
      rcases h2 with h2 | ⟨x, y, h3, h4, _⟩
      · exact h2
      · have := ha.two; rw [h3] at this; simp at this
    refine ⟨A, B, ?_, ha, hb, e.symm, rfl, rfl, fun z => by rw [← e]; simp⟩
    unfold SplineOut.common SplineOut.base
    simp only [h1]
  · rw [hst] at hr
    cases hr
    simp only [Option.getD_some] at hmem
    have hA : A.base.xk ⊆ u := fun z hz => (hmem z).2 (.inl hz)
    have hB : B.base.xk ⊆ u := fun z hz => (hmem z).2 (.inr hz)
    have lo : ∀ z ∈ u, x0 ≤ z := fun z hz => by
      rcases hsub z hz with h | h
      · rw [← ha.first]; exact first_le ha.wf.inc h
      · rw [← hb.first]; exact first_le hb.wf.inc h
    have hi : ∀ z ∈ u, z ≤ xl := fun z hz => by
      rcases hsub z hz with h | h
      · rw [← ha.last]; exact le_last ha.wf.inc h
      · rw [← hb.last]; exact le_last hb.wf.inc h
    obtain ⟨a, a1, _, a3, a4, a5, _⟩ := new_true (ha.addknots hu hA lo hi)
    obtain ⟨b, b1, _, b3, b4, b5, _⟩ := new_true (hb.addknots hu hB lo hi)
    refine ⟨a, b, ?_, a3, b3, by rw [a5, b5]; rfl, a4, b4, fun z => by rw [a5]; exact hmem z⟩
    unfold SplineOut.common
    simp only [SplineOut.base, h1, SplineOut.addknotsRaw, SplineOut.isPer, a1, b1]
    rfl

theorem pad_per {A : PerPwPoly K V} {x0 xl : K} {f : K → V} (ha : Rep A.base x0 xl f) {nd : ℕ} (hd : A.base.deg ≤ nd) :
    ∃ a : PerPwPoly K V, SplineOut.pad true (.per A) nd = .ok (.per a) ∧ Rep a.base x0 xl f ∧ a.base.n = nd + 1 ∧ a.base.xk = A.base.xk := by
  unfold SplineOut.pad
  by_cases h : A.base.deg = nd
  · refine ⟨A, ?_, ha, ?_, rfl⟩
    · simp [SplineOut.base, h]
    · have := ha.wf.pos
      unfold PwPoly.deg at h
      omega
  · obtain ⟨a, h1, _, h3, h4, h5, _⟩ := new_true (ha.pad hd)
    obtain ⟨_, w2, w3⟩ := padTo_WF ha.wf nd hd
    refine ⟨a, ?_, h3, by rw [h4, w2], by rw [h5, w3]⟩
    simp only [SplineOut.base, ne_eq, h, not_false_eq_true, if_true]
    exact h1

theorem binary_per {A B : PerPwPoly K V} {x0 xl : K} {f g : K → V} (ha : Rep A.base x0 xl f) (hb : Rep B.base x0 xl g) {D : K}
    (hD : Separated (defaultTol K) D A.base.xk B.base.xk) :
    ∃ a b : PerPwPoly K V, SplineOut.binary (.per A) (.per B) = .ok (.per a, .per b) ∧ Rep a.base x0 xl f ∧ Rep b.base x0 xl g ∧
      b.base.xk = a.base.xk ∧ a.base.n = b.base.n ∧ a.base.n = max A.base.n B.base.n ∧ (∀ z, z ∈ a.base.xk ↔ z ∈ A.base.xk ∨ z ∈ B.base.xk) := by
  obtain ⟨a, a1, a2, a3, a4⟩ := pad_per ha (nd := max A.base.deg B.base.deg) (le_max_left _ _)
  obtain ⟨b, b1, b2, b3, b4⟩ := pad_per hb (nd := max A.base.deg B.base.deg) (le_max_right _ _)
  obtain ⟨c, d, e, c1, d1, e1, e2, e3, e4⟩ := common_per a2 b2 (D := D) (by rw [a4, b4]; exact hD)
  refine ⟨c, d, ?_, c1, d1, e1, by rw [e2, e3, a3, b3], ?_, by rw [← a4, ← b4]; exact e4⟩
  · unfold SplineOut.binary
    simp only [SplineOut.base, SplineOut.isPer, a1, b1, bind, Except.bind]
    exact e
  · rw [e2, a3]
    have := ha.wf.pos
    have := hb.wf.pos
    unfold PwPoly.deg
    omega

/-- A PerPwPoly made of `p`. -/
theorem rep_of_new {p : PwPoly K V} (hp : WF p) {P : PerPwPoly K V} (hP : PerPwPoly.new p = .ok P) :
    Rep p (p.xk.getD 0 0) (p.xk.getD (p.xk.length - 1) 0) (inner p) :=
  ⟨hp, (perNew_fun hp hP).1, rfl, rfl, fun _ _ _ => rfl⟩

/-- What is meant by a pointwise operation on two periodic functions: `R` has the same ends and the same period, its knots are those of the two
operands, and its value is `op` of the values at every `x`. -/
def PerPointwise (P Q R : PerPwPoly K V) (op : V → V → V) : Prop :=
  R.period = P.period ∧ R.base.xk.getD 0 0 = P.base.xk.getD 0 0 ∧ (∀ z, z ∈ R.base.xk ↔ z ∈ P.base.xk ∨ z ∈ Q.base.xk) ∧
  ∀ x, ∃ a b, P.call x = .ok a ∧ Q.call x = .ok b ∧ R.call x = .ok (op a b)

theorem zip_pointwise {p q : PwPoly K V} (hp : WF p) (hq : WF q) {P Q : PerPwPoly K V} (hP : PerPwPoly.new p = .ok P) (hQ : PerPwPoly.new q = .ok Q)
    (h0 : q.xk.getD 0 0 = p.xk.getD 0 0) (hl : q.xk.getD (q.xk.length - 1) 0 = p.xk.getD (p.xk.length - 1) 0) {D : K}
    (hD : Separated (defaultTol K) D p.xk q.xk) (op : V → V → V)
    (hf : ∀ (a b c d : V) (t : K), op (a + t • b) (c + t • d) = op a c + t • op b d) (hz : op 0 0 = 0) :
    ∃ a b : PerPwPoly K V, SplineOut.binary (.per P) (.per Q) = .ok (.per a, .per b) ∧ ∃ R : PerPwPoly K V,
      SplineOut.new true (⟨a.base.xk, a.base.n, List.zipWith (List.zipWith op) a.base.c b.base.c⟩ : PwPoly K V) = .ok (.per R) ∧
      R.base.n = max P.base.n Q.base.n ∧ PerPointwise P Q R op := by
  have rp := rep_of_new hp hP
  have rq := rep_of_new hq hQ
  obtain ⟨_, wfP, xP, nP, _⟩ := perNew_fun hp hP
  obtain ⟨_, wfQ, xQ, nQ, _⟩ := perNew_fun hq hQ
  rw [h0, hl] at rq
  obtain ⟨P', hP', rP, _, _, perP⟩ := rp.new
  rw [hP] at hP'; obtain rfl := Except.ok.inj hP'
  obtain ⟨Q', hQ', rQ, _, _, perQ⟩ := rq.new
  rw [hQ] at hQ'; obtain rfl := Except.ok.inj hQ'
  obtain ⟨a, b, e, ra, rb, hx, hn, hm, hmem⟩ := binary_per rP rQ (D := D) (by rw [xP, xQ]; exact hD)
  obtain ⟨R, e1, e2, e3, e4, e5, e6⟩ := new_true (ra.zip rb hn hx op hf hz)
  refine ⟨a, b, e, R, e1, by rw [e4]; exact hm, by rw [e6, perP], by rw [e3.first, xP], fun z => by rw [e5]; exact hmem z, fun x => ?_⟩
  refine ⟨_, _, rp.call hP x, rq.call hQ x, ?_⟩
  exact (ra.zip rb hn hx op hf hz).call e2 x

/-- **C82** The sum of two periodic functions with the same ends is the sum of the values at every `x`, and has the same period.
Partial: knots that differ are farther apart than the tolerance, and the two functions have the same ends (see `C82_period_refuted`). -/
theorem C82_add_partial {p q : PwPoly K V} (hp : WF p) (hq : WF q) {P Q : PerPwPoly K V} (hP : PerPwPoly.new p = .ok P) (hQ : PerPwPoly.new q = .ok Q)
    (h0 : q.xk.getD 0 0 = p.xk.getD 0 0) (hl : q.xk.getD (q.xk.length - 1) 0 = p.xk.getD (p.xk.length - 1) 0) {D : K}
    (hD : Separated (defaultTol K) D p.xk q.xk) :
    ∃ R : PerPwPoly K V, SplineOut.add (.per P) (.per Q) = .ok (.per R) ∧ R.base.n = max P.base.n Q.base.n ∧ PerPointwise P Q R (· + ·) := by
  obtain ⟨a, b, e, R, e1, e2, e3⟩ := zip_pointwise hp hq hP hQ h0 hl hD (· + ·) (fun a b c d t => by module) (by simp)
  refine ⟨R, ?_, e2, e3⟩
  unfold SplineOut.add
  rw [e]
  exact e1

/-- **C82** The same for the difference. -/
theorem C82_sub_partial {p q : PwPoly K V} (hp : WF p) (hq : WF q) {P Q : PerPwPoly K V} (hP : PerPwPoly.new p = .ok P) (hQ : PerPwPoly.new q = .ok Q)
    (h0 : q.xk.getD 0 0 = p.xk.getD 0 0) (hl : q.xk.getD (q.xk.length - 1) 0 = p.xk.getD (p.xk.length - 1) 0) {D : K}
    (hD : Separated (defaultTol K) D p.xk q.xk) :
    ∃ R : PerPwPoly K V, SplineOut.sub (.per P) (.per Q) = .ok (.per R) ∧ R.base.n = max P.base.n Q.base.n ∧ PerPointwise P Q R (· - ·) := by
  obtain ⟨a, b, e, R, e1, e2, e3⟩ := zip_pointwise hp hq hP hQ h0 hl hD (· - ·) (fun a b c d t => by module) (by simp)
  refine ⟨R, ?_, e2, e3⟩
  unfold SplineOut.sub
  rw [e]
  exact e1

/-- **C82** The same for the product. -/
theorem C82_mul_partial {R : Type} [CommRing R] [Algebra K R] {p q : PwPoly K R} (hp : WF p) (hq : WF q) {P Q : PerPwPoly K R}
    (hP : PerPwPoly.new p = .ok P) (hQ : PerPwPoly.new q = .ok Q)
    (h0 : q.xk.getD 0 0 = p.xk.getD 0 0) (hl : q.xk.getD (q.xk.length - 1) 0 = p.xk.getD (p.xk.length - 1) 0) {D : K}
    (hD : Separated (defaultTol K) D p.xk q.xk) :
    ∃ S : PerPwPoly K R, SplineOut.mul (.per P) (.per Q) = .ok (.per S) ∧ S.base.deg = P.base.deg + Q.base.deg ∧ PerPointwise P Q S (· * ·) := by
  have rp := rep_of_new hp hP
  have rq := rep_of_new hq hQ
  obtain ⟨_, wfP, xP, nP, _⟩ := perNew_fun hp hP
  obtain ⟨_, wfQ, xQ, nQ, _⟩ := perNew_fun hq hQ
  rw [h0, hl] at rq
  obtain ⟨P', hP', rP, _, _, perP⟩ := rp.new
  rw [hP] at hP'; obtain rfl := Except.ok.inj hP'
  obtain ⟨Q', hQ', rQ, _, _, perQ⟩ := rq.new
  rw [hQ] at hQ'; obtain rfl := Except.ok.inj hQ'
  obtain ⟨a, b, e, ra, rb, hx, ha, hb, hmem⟩ := common_per rP rQ (D := D) (by rw [xP, xQ]; exact hD)
  have p1 := ra.wf.pos
  have p2 := rb.wf.pos
  have hmul : SplineOut.mul (.per P) (.per Q) =
      if a.base.n < b.base.n then SplineOut.new true ⟨a.base.xk, b.base.n + a.base.n - 1, List.zipWith mulPiece b.base.c a.base.c⟩
      else SplineOut.new true ⟨a.base.xk, a.base.n + b.base.n - 1, List.zipWith mulPiece a.base.c b.base.c⟩ := by
    unfold SplineOut.mul
    rw [e]
    rfl
  rw [hmul]
  by_cases hlt : a.base.n < b.base.n
  · rw [if_pos hlt]
    have r := rb.mul ra hx.symm
    rw [hx] at r
    have r' : Rep (⟨a.base.xk, b.base.n + a.base.n - 1, List.zipWith mulPiece b.base.c a.base.c⟩ : PwPoly K R) _ _ fun x => inner p x * inner q x :=
      ⟨r.wf, r.two, r.first, r.last, fun x h1 h2 => by rw [mul_comm]; exact r.val x h1 h2⟩
    obtain ⟨S, e1, e2, e3, e4, e5, e6⟩ := new_true r'
    refine ⟨S, e1, by unfold PwPoly.deg; rw [e4]; simp only; omega, by rw [e6, perP], by rw [e3.first, xP], fun z => by rw [e5]; exact hmem z, fun x => ?_⟩
    exact ⟨_, _, rp.call hP x, rq.call hQ x, r'.call e2 x⟩
  · rw [if_neg hlt]
    have r := ra.mul rb hx
    obtain ⟨S, e1, e2, e3, e4, e5, e6⟩ := new_true r
    refine ⟨S, e1, by unfold PwPoly.deg; rw [e4]; simp only; omega, by rw [e6, perP], by rw [e3.first, xP], fun z => by rw [e5]; exact hmem z, fun x => ?_⟩
    exact ⟨_, _, rp.call hP x, rq.call hQ x, r.call e2 x⟩

theorem polyVal_neg' (c : List V) (x : K) : polyVal (c.map fun v => -v) x = -polyVal c x := by
  induction c with
  | nil => simp
  | cons a c ih => simp only [List.map_cons, polyVal_cons, ih, smul_neg, neg_add]


/-- For two PwPoly objects the operators are those of C16 and C17. -/
theorem C82_pw (p q : PwPoly K V) :
    SplineOut.add (.pw p) (.pw q) = (p.add q).map .pw ∧ SplineOut.sub (.pw p) (.pw q) = (p.sub q).map .pw := by
  have hpad : ∀ (r : PwPoly K V) (nd : ℕ), SplineOut.pad false (.pw r) nd = .ok (.pw (r.padTo nd)) := by
    intro r nd
    unfold SplineOut.pad SplineOut.new PwPoly.padTo
    simp only [SplineOut.base]
    by_cases h : r.deg = nd <;> simp [h]
  have hb : SplineOut.binary (.pw p) (.pw q) = (PwPoly.binary p q).map fun (a, b) => (.pw a, .pw b) := by
    unfold SplineOut.binary PwPoly.binary
    simp only [SplineOut.base, SplineOut.isPer, hpad, except_ok_bind]
    unfold SplineOut.common PwPoly.commonKnots
    simp only [SplineOut.base, SplineOut.addknotsRaw, SplineOut.isPer, SplineOut.new]
    rcases allknotsGo (defaultTol K) ((p.padTo (max p.deg q.deg)).xk, false) [(q.padTo (max p.deg q.deg)).xk] with e | ⟨u, b⟩
    · rfl
    · cases b <;> rfl
  unfold SplineOut.add SplineOut.sub PwPoly.add PwPoly.sub
  rw [hb]
  rcases PwPoly.binary p q with e | ⟨a, b⟩
  · exact ⟨rfl, rfl⟩
  · exact ⟨rfl, rfl⟩

/-- For two PwPoly objects the product is that of C17. -/
theorem C82_pw_mul {R : Type} [CommRing R] [Algebra K R] (p q : PwPoly K R) : SplineOut.mul (.pw p) (.pw q) = (p.mul q).map .pw := by
  have hb : SplineOut.common (.pw p) (.pw q) = (PwPoly.commonKnots p q).map fun (a, b) => (.pw a, .pw b) := by
    unfold SplineOut.common PwPoly.commonKnots
    simp only [SplineOut.base, SplineOut.addknotsRaw, SplineOut.isPer, SplineOut.new]
    rcases allknotsGo (defaultTol K) (p.xk, false) [q.xk] with e | ⟨u, b⟩
    · rfl
    · cases b <;> rfl
  unfold SplineOut.mul PwPoly.mul
  rw [hb]
  rcases PwPoly.commonKnots p q with e | ⟨a, b⟩
  · rfl
  · simp only [Except.map, except_ok_bind, SplineOut.base, SplineOut.isPer, SplineOut.new]
    by_cases h : a.n < b.n <;> simp [h]

/-- **C82** Negation. -/
theorem C82_neg {p : PwPoly K V} (hp : WF p) {P : PerPwPoly K V} (hP : PerPwPoly.new p = .ok P) :
    ∃ R, P.neg = .ok R ∧ R.period = P.period ∧ ∀ x, ∃ a, P.call x = .ok a ∧ R.call x = .ok (-a) := by
  have rp := rep_of_new hp hP
  obtain ⟨P', hP', rP, _, _, perP⟩ := rp.new
  rw [hP] at hP'; obtain rfl := Except.ok.inj hP'
  have hw := (C16_neg rP.wf).1
  have r : Rep P.base.neg (p.xk.getD 0 0) (p.xk.getD (p.xk.length - 1) 0) fun x => -inner p x := by
    refine ⟨hw, rP.two, rP.first, rP.last, fun x h1 h2 => ?_⟩
    rw [← rP.val x h1 h2]
    have hlt := ss_lt_length rP.wf.inc rP.two (x := x) (by rw [rP.last]; exact h2)
    have := rP.two
    have hl := rP.wf.len
    unfold inner pieceVal piece neg
    simp only
    rw [getD_map_ne _ _ _ (by omega) [], polyVal_neg']
  obtain ⟨R, e1, e2, e3, e4, e5⟩ := r.new
  exact ⟨R, e1, by rw [e5, perP], fun x => ⟨_, rp.call hP x, r.call e1 x⟩⟩

/-- **C82** The derivative of a periodic function is periodic, and is what `p(x, m)` returns (partial: for a degree of at least 1, as in C09). -/
theorem C82_deriv_partial {p : PwPoly K V} (hp : WF p) {P : PerPwPoly K V} (hP : PerPwPoly.new p = .ok P) (m : ℕ) (hm : 2 ≤ p.n ∨ m = 0) :
    ∃ R, P.deriv m = .ok R ∧ R.period = P.period ∧ ∀ x, ∃ l, P.callN x m = .ok l ∧ R.call x = .ok (l.getD m 0) := by
  obtain ⟨h2, wfP, xP, nP, _⟩ := perNew_fun hp hP
  obtain ⟨P', per, hP', hper, hpos, hpe, _, hcall, hval⟩ := (C23_periodic hp).2 h2
  rw [hP] at hP'; obtain rfl := Except.ok.inj hP'
  obtain ⟨hw, hxk, hn, hd⟩ := C09_deriv wfP m
  obtain ⟨R, per', hR, hper', _, hpe', _, hcallR, hvalR⟩ := (C23_periodic hw).2 (by rw [hxk, xP]; exact h2)
  have epp : per' = per := by rw [hpe', hpe, hxk, xP]
  subst epp
  refine ⟨R, hR, by rw [hper', hper], fun x => ?_⟩
  set x0 := p.xk.getD 0 0 with hx0
  set y := x0 + pmod (x - x0) per' with hy
  have ex : y = x + ((-⌊(x - x0) / per'⌋ : ℤ) : K) * per' := by
    rw [hy]; unfold pmod; push_cast; ring
  have a0 : x0 ≤ y := by have := pmod_nonneg (x - x0) hpos; linarith
  have a1 : y < p.xk.getD (p.xk.length - 1) 0 := by have := pmod_lt (x - x0) hpos; linarith
  have c1 := (hcall x (-⌊(x - x0) / per'⌋)).2 m
  have c2 := (hcallR x (-⌊(x - x0) / per'⌋)).1
  rw [← ex] at c1 c2
  have hi := inPiece_searchsorted hp.inc y
  obtain ⟨l, hl1, hl2, hl3⟩ := (hval y a0 a1 _ hi).2 m hm
  refine ⟨l, by rw [← c1]; exact hl1, ?_⟩
  have hiP : InPiece P.base.xk (searchsorted p.xk y) y := by rw [xP]; exact hi
  have hid : InPiece (P.base.deriv m).xk (searchsorted p.xk y) y := hiP
  have v := (hvalR y (by rw [hxk, xP]; exact a0) (by rw [hxk, xP]; exact a1) _ hid).1
  rw [← c2, v, hl3 m le_rfl]
  have hss := ss_lt_length hp.inc h2 a1
  obtain ⟨j, hj⟩ : ∃ j, max (searchsorted p.xk y) 1 = j + 1 := ⟨max (searchsorted p.xk y) 1 - 1, by omega⟩
  have hpc := (perNew_fun hp hP).2.2.2.2.1 j (by omega)
  rw [hj]
  have := deriv_pieceDeriv wfP m (j + 1) y 0
  rw [Nat.zero_add] at this
  have e0 : pieceVal (P.base.deriv m) (j + 1) y = pieceDeriv (P.base.deriv m) (j + 1) y 0 := by
    unfold pieceVal pieceDeriv; rw [polyDeriv_zero]
  rw [e0, this]
  unfold pieceDeriv
  rw [hpc, xP]

/-- **C82** Adding knots inside the period does not change a periodic function. -/
theorem C82_addknots_partial {p : PwPoly K V} (hp : WF p) {P : PerPwPoly K V} (hP : PerPwPoly.new p = .ok P) {xk : List K} (hx : Knots xk)
    (h0 : ∀ z ∈ xk, p.xk.getD 0 0 ≤ z) (hl : ∀ z ∈ xk, z ≤ p.xk.getD (p.xk.length - 1) 0) {tol D : K} (ht : 0 ≤ tol) (hD : Separated tol D p.xk xk) :
    ∃ R, SplineOut.addknots (.per P) tol xk = .ok (.per R) ∧ R.period = P.period ∧ (∀ z, z ∈ R.base.xk ↔ z ∈ p.xk ∨ z ∈ xk) ∧
      ∀ x, R.call x = P.call x := by
  have rp := rep_of_new hp hP
  obtain ⟨P', hP', rP, _, xP, perP⟩ := rp.new
  rw [hP] at hP'; obtain rfl := Except.ok.inj hP'
  obtain ⟨r, hr, hmem⟩ := allknotsStep_separated ht hp.knots hx hD
  unfold SplineOut.addknots
  simp only [SplineOut.base, xP]
  rcases allknotsGo_one ht hp.knots hx with ⟨h1, h2⟩ | ⟨u, h1, hst, hu, hsub⟩
  · rw [h1]
    have e : p.xk = xk := by
      rcases h2 with h2 | ⟨x, y, h3, h4, _⟩
      · exact h2
      · have := rp.two; rw [h3] at this; simp at this
    exact ⟨P, rfl, rfl, fun z => by rw [xP, ← e]; simp, fun _ => rfl⟩
  · rw [h1]
    simp only
    rw [hst] at hr
    cases hr
    simp only [Option.getD_some] at hmem
    have hA : p.xk ⊆ u := fun z hz => (hmem z).2 (.inl hz)
    by_cases hlen : u.length = p.xk.length
    · rw [if_pos hlen]
      refine ⟨P, rfl, rfl, fun z => ?_, fun _ => rfl⟩
      rw [xP, ← hmem]
      have hn : p.xk.Nodup := hp.inc.imp fun h => ne_of_lt h
      have := (hn.subperm hA).perm_of_length_le hlen.le
      exact this.mem_iff
    · rw [if_neg hlen]
      have lo : ∀ z ∈ u, p.xk.getD 0 0 ≤ z := fun z hz => (hsub z hz).elim (first_le hp.inc) (h0 z)
      have hi : ∀ z ∈ u, z ≤ p.xk.getD (p.xk.length - 1) 0 := fun z hz => (hsub z hz).elim (le_last hp.inc) (hl z)
      have rr := rP.addknots hu (by rw [xP]; exact hA) lo hi
      obtain ⟨R, e1, e2, e3, e4, e5, e6⟩ := new_true rr
      exact ⟨R, e1, by rw [e6, perP], fun z => by rw [e5]; exact hmem z, fun x => by rw [rr.call e2, rp.call hP]⟩

/-- **C82** `p.integ(1, [k], lbnd)` of a periodic function: within the first period it is the antiderivative with value `k` at `lbnd` (that of the
PwPoly with the same coefficients), and it is continued periodically.  So it is an antiderivative only within the period
(`C82_integ_refuted`). -/
theorem C82_integ_partial {p : PwPoly K V} (hp : WF p) {P : PerPwPoly K V} (hP : PerPwPoly.new p = .ok P) (k : V) (lbnd : K) :
    ∃ F R, P.base.integ 1 [k] lbnd = .ok F ∧ P.integ 1 [k] lbnd = .ok R ∧ R.period = P.period ∧
      F.call lbnd = k ∧ (∀ x, (F.deriv 1).call x = P.base.call x) ∧ Continuous F ∧
      ∀ x, R.call x = .ok (F.call (p.xk.getD 0 0 + pmod (x - p.xk.getD 0 0) (p.xk.getD (p.xk.length - 1) 0 - p.xk.getD 0 0))) := by
  have rp := rep_of_new hp hP
  obtain ⟨P', hP', rP, _, xP, perP⟩ := rp.new
  rw [hP] at hP'; obtain rfl := Except.ok.inj hP'
  obtain ⟨F, f1, f2, f3, f4, f5⟩ := C10_integ_once rP.wf k lbnd
  have fx : F.xk = p.xk := by
    unfold PwPoly.integ at f1
    simp only [integConsts] at f1
    cases f1
    exact xP
  have rF : Rep F (p.xk.getD 0 0) (p.xk.getD (p.xk.length - 1) 0) F.call := by
    refine ⟨f2, by rw [fx]; exact rp.two, congrArg (·.getD 0 0) fx, by rw [fx], fun x h1 h2 => ?_⟩
    rw [call_eq f2]
    unfold inner
    rcases Nat.eq_zero_or_pos (searchsorted F.xk x) with h | h
    · have := rp.two
      have hm : MatchAt F 0 0 := f5 0 (by rw [fx]; omega)
      have hx : x = F.xk.getD 0 0 := by
        have hi := inPiece_searchsorted f2.inc x
        rw [h] at hi
        refine le_antisymm ?_ (by rw [fx]; exact h1)
        rw [List.getD_eq_getElem _ _ (by rw [fx]; omega)]
        exact hi.2.2 0 (by rw [fx]; omega) le_rfl
      rw [h, hx]
      unfold MatchAt pieceDeriv at hm
      rw [polyDeriv_zero, polyDeriv_zero] at hm
      exact hm.symm
    · rw [max_eq_left h]
  obtain ⟨R, e1, e2, e3, e4, e5⟩ := rF.new
  refine ⟨F, R, f1, ?_, by rw [e5, perP], f3, f4, f5, fun x => rF.call e1 x⟩
  unfold PerPwPoly.integ
  rw [f1]
  exact e1

/-- sampling a periodic function -/
theorem per_mapM_ok {α β : Type} {f : α → Except PyErr β} {g : α → β} (l : List α) (h : ∀ a ∈ l, f a = .ok (g a)) : l.mapM f = .ok (l.map g) := by
  induction l with
  | nil => rfl
  | cons a l ih =>
    rw [List.mapM_cons, h a (by simp), ih fun b hb => h b (by simp [hb])]
    rfl

/-- **C82** `p.reknot(xk, n)` of a periodic function, odd degree `n`: new knots whose span differs from the period by more than 1e-6 of it are
refused; otherwise the result has period `xk[-1] - xk[0]`, and at both ends of every interval between new knots it has the value and the
derivatives up to `(n-1)/2` that `p(x, (n-1)/2)` has there. -/
theorem C82_reknot_partial {inv : InvFun K} (hinv : InvOK inv) {p : PwPoly K V} (hp : WF p) {P : PerPwPoly K V} (hP : PerPwPoly.new p = .ok P)
    {xk : List K} (hs : xk.Pairwise (· < ·)) (hx : 2 ≤ xk.length) {n : ℕ} (hn : n % 2 = 1) {per : K} (hper : P.period = some per) :
    (1 / 1000000 * per < |xk.getD (xk.length - 1) 0 - xk.getD 0 0 - per| → P.reknot inv xk (some n) = .error .valueError) ∧
    (|xk.getD (xk.length - 1) 0 - xk.getD 0 0 - per| ≤ 1 / 1000000 * per →
      ∃ Q, P.reknot inv xk (some n) = .ok Q ∧ WF Q.base ∧ Q.base.xk = xk ∧ Q.base.n = n + 1 ∧
        Q.period = some (xk.getD (xk.length - 1) 0 - xk.getD 0 0) ∧
        ∀ j, j + 1 < xk.length → ∃ l r, P.callN (xk.getD j 0) ((n - 1) / 2) = .ok l ∧ P.callN (xk.getD (j + 1) 0) ((n - 1) / 2) = .ok r ∧
          ∀ k ≤ (n - 1) / 2, pieceDeriv Q.base (j + 1) (xk.getD j 0) k = l.getD k 0 ∧
            pieceDeriv Q.base (j + 1) (xk.getD (j + 1) 0) k = r.getD k 0) := by
  have hxn : xk ≠ [] := by rintro rfl; simp at hx
  have hd : ¬ (xk.getD (xk.length - 1) 0 < xk.getD 0 0) := fun h => not_dec hs ⟨by omega, h⟩
  set h := (n - 1) / 2 with hh
  constructor
  · intro hc
    unfold PerPwPoly.reknot
    simp only [Option.getD_some, if_neg hxn, if_neg hd, hper, except_ok_bind, if_pos hc]
    rfl
  · intro hc
    -- the sampled values
    have hcall : ∀ x, P.callN x h = .ok (P.base.callN (P.base.xk.getD 0 0 + pmod (x - P.base.xk.getD 0 0) per) h) := by
      intro x; unfold PerPwPoly.callN; rw [hper]
    set g : K → List V := fun x => P.base.callN (P.base.xk.getD 0 0 + pmod (x - P.base.xk.getD 0 0) per) h with hg
    set rows : List (List V) := (List.range (h + 1)).map fun k => (xk.map g).map fun l => l.getD k 0 with hrows
    have hinit : PwPoly.init inv xk rows = .ok (initPieces inv xk rows none) := init_odd inv hs hx (by simp [hrows]) (by simp [hrows])
    have hwf : WF (initPieces inv xk rows none) := initPieces_WF hinv hs hx _ (by simp [hrows]) _
    obtain ⟨Q, per', hQ, _, _, _, wfQ, _⟩ := (C23_periodic hwf).2 hx
    obtain ⟨_, _, xQ, nQ, pQ, _⟩ := perNew_fun hwf hQ
    have hre : P.reknot inv xk (some n) = .ok ⟨Q.base, some (xk.getD (xk.length - 1) 0 - xk.getD 0 0)⟩ := by
      unfold PerPwPoly.reknot
      simp only [Option.getD_some, if_neg hxn, if_neg hd, hper, except_ok_bind, if_neg (not_lt.2 hc)]
      show (xk.mapM (fun x => P.callN x h) >>= _) = _
      rw [per_mapM_ok (g := g) xk fun x _ => hcall x]
      rw [except_ok_bind, if_neg (by omega)]
      show (PwPoly.init inv xk rows >>= _) = _
      rw [hinit]
      show (PerPwPoly.new _ >>= _) = _
      rw [hQ]
      rfl
    refine ⟨_, hre, wfQ, xQ, ?_, rfl, fun j hj => ⟨_, _, hcall _, hcall _, fun k hk => ?_⟩⟩
    · show Q.base.n = n + 1
      rw [nQ]; simp [initPieces, hrows]; omega
    · have hrow : ∀ i < xk.length, (rows.getD k []).getD i 0 = (g (xk.getD i 0)).getD k 0 := by
        intro i hi
        have e : rows.getD k [] = (xk.map g).map fun l => l.getD k 0 := by
          rw [hrows, List.getD_eq_getElem _ _ (by simp; omega), List.getElem_map, List.getElem_range]
        rw [e, List.getD_eq_getElem _ _ (by simpa using hi), List.getElem_map, List.getElem_map, List.getD_eq_getElem _ _ hi]
      have hpd : ∀ x, pieceDeriv Q.base (j + 1) x k = pieceDeriv (initPieces inv xk rows none) (j + 1) x k := by
        intro x
        unfold pieceDeriv
        rw [pQ j hj, xQ]
      have k1 := (initPieces_knot hinv hs hx rows (by simp [hrows]) none j (by omega) k (by simp [hrows]; omega)).2
      have k2 := (initPieces_knot hinv hs hx rows (by simp [hrows]) none (j + 1) hj k (by simp [hrows]; omega)).1
      rw [hrow j (by omega)] at k1
      rw [hrow (j + 1) hj] at k2
      exact ⟨(hpd _).trans k1, (hpd _).trans k2⟩

/-- a periodic ramp for the example -/
def saw0 : PwPoly ℚ ℚ := ⟨[0, 1], 2, [[0, 1], [0, 1], [1, 1]]⟩

theorem rev_facts {xk : List K} (hd : xk.getD (xk.length - 1) 0 < xk.getD 0 0) : xk ≠ [] ∧ xk.reverse ≠ [] ∧
    ¬ (xk.reverse.getD (xk.reverse.length - 1) 0 < xk.reverse.getD 0 0) := by
  have h0 : xk ≠ [] := by rintro rfl; simp at hd
  have hl : 0 < xk.length := List.length_pos_iff.2 h0
  refine ⟨h0, by simpa using h0, ?_⟩
  rw [List.getD_eq_getElem _ _ (by simpa using hl), List.getD_eq_getElem _ _ (by simpa using hl), List.getElem_reverse, List.getElem_reverse,
    ← List.getD_eq_getElem _ 0, ← List.getD_eq_getElem _ 0]
  simp only [List.length_reverse]
  rw [show xk.length - 1 - (xk.length - 1) = 0 by omega, show xk.length - 1 - 0 = xk.length - 1 by omega]
  exact hd.le.not_gt

/-- **C13, C82** Decreasing new knots: `reknot` does the same as with the reversed array, for plain and for periodic functions. -/
theorem C13_reknot_decreasing (inv : InvFun K) (p : PwPoly K V) {xk : List K} (hd : xk.getD (xk.length - 1) 0 < xk.getD 0 0) (n : Option ℕ) :
    p.reknot inv xk n = p.reknot inv xk.reverse n := by
  obtain ⟨h1, h2, h3⟩ := rev_facts hd
  unfold PwPoly.reknot
  simp only [if_neg h1, if_neg h2, if_pos hd, if_neg h3]

theorem C82_reknot_decreasing (inv : InvFun K) (P : PerPwPoly K V) {xk : List K} (hd : xk.getD (xk.length - 1) 0 < xk.getD 0 0) (n : Option ℕ) :
    P.reknot inv xk n = P.reknot inv xk.reverse n := by
  obtain ⟨h1, h2, h3⟩ := rev_facts hd
  unfold PerPwPoly.reknot
  simp only [if_neg h1, if_neg h2, if_pos hd, if_neg h3]

example : (⟨saw0, some 1⟩ : PerPwPoly ℚ ℚ).reknot (adjInv ℚ) [1, 0] (some 1) = (⟨saw0, some 1⟩ : PerPwPoly ℚ ℚ).reknot (adjInv ℚ) [0, 1] (some 1) ∧
    ((⟨saw0, some 1⟩ : PerPwPoly ℚ ℚ).reknot (adjInv ℚ) [1, 0] (some 1)).toOption.isSome := by
  refine ⟨C82_reknot_decreasing _ _ (by norm_num) _, by decide +kernel⟩

end

/-! ### where it fails, and examples -/

deriving instance DecidableEq for PerPwPoly

/-- the saw tooth x on [0,1), with period 1 -/
def saw : PwPoly ℚ ℚ := ⟨[0, 1], 2, [[0, 1], [0, 1], [1, 1]]⟩
/-- the same function, described from 1/2 to 3/2 -/
def sawShift : PwPoly ℚ ℚ := ⟨[1/2, 1, 3/2], 2, [[1/2, 1], [1/2, 1], [0, 1], [1/2, 1]]⟩
/-- the constant 1 with a knot inside the period -/
def ones : PwPoly ℚ ℚ := ⟨[0, 1/2, 1], 1, [[1], [1], [1], [1]]⟩

theorem saw_wf : WF saw := ⟨by decide, by decide +kernel, rfl, by decide, by decide +kernel⟩
theorem sawShift_wf : WF sawShift := ⟨by decide, by decide +kernel, rfl, by decide, by decide +kernel⟩
theorem ones_wf : WF ones := ⟨by decide, by decide +kernel, rfl, by decide, by decide +kernel⟩

/-- evaluate a result -/
def evalAt (o : Except PyErr (SplineOut ℚ ℚ)) (x : ℚ) : Except PyErr ℚ := o.bind fun r => r.call x

/-- **C82 refuted** Two descriptions of the same function of period 1, on [0, 1] and on [1/2, 3/2]: the sum has period 3/2, and its value at 7/4 is 1/2
instead of 3/2. -/
theorem C82_period_refuted : ∃ P Q : PerPwPoly ℚ ℚ, PerPwPoly.new saw = .ok P ∧ PerPwPoly.new sawShift = .ok Q ∧
    P.period = some 1 ∧ Q.period = some 1 ∧ P.call (7/4) = .ok (3/4) ∧ Q.call (7/4) = .ok (3/4) ∧
    evalAt (SplineOut.add (.per P) (.per Q)) (7/4) = .ok (1/2) := by
  refine ⟨⟨saw, some 1⟩, ⟨⟨[1/2, 1, 3/2], 2, [[1/2, 1], [1/2, 1], [0, 1], [1/2, 1]]⟩, some 1⟩, ?_, ?_, rfl, rfl, ?_, ?_, ?_⟩
  all_goals decide +kernel

/-- **C82 refuted** A knot outside the period changes a periodic function: `addknots([2])` of the saw tooth is x up to 2, with period 2. -/
theorem C82_addknots_refuted : ∃ P : PerPwPoly ℚ ℚ, PerPwPoly.new saw = .ok P ∧ P.call (3/2) = .ok (1/2) ∧
    evalAt (SplineOut.addknots (.per P) (defaultTol ℚ) [2]) (3/2) = .ok (3/2) := by
  refine ⟨⟨saw, some 1⟩, ?_, ?_, ?_⟩
  all_goals decide +kernel

/-- **C82 refuted** The sum of a PwPoly and a PerPwPoly (in this order) is not periodic: outside the period the last polynomial of the
periodic function is used. -/
theorem C82_mixed_refuted : ∃ P : PerPwPoly ℚ ℚ, PerPwPoly.new saw = .ok P ∧ P.call (3/2) = .ok (1/2) ∧ ones.call (3/2) = 1 ∧
    evalAt (SplineOut.add (.pw ones) (.per P)) (3/2) = .ok (5/2) ∧ evalAt (SplineOut.add (.per P) (.pw ones)) (3/2) = .ok (3/2) := by
  refine ⟨⟨saw, some 1⟩, ?_, ?_, ?_, ?_, ?_⟩
  all_goals decide +kernel

/-- **C82 refuted** The integral from 0 of the constant 1, as a periodic function, is 1/2 at 3/2. -/
theorem C82_integ_refuted : ∃ P : PerPwPoly ℚ ℚ, PerPwPoly.new ones = .ok P ∧ P.call (3/2) = .ok 1 ∧
    (P.integ 1 [0] 0).bind (·.call (3/2)) = .ok (1/2) := by
  refine ⟨⟨ones, some 1⟩, ?_, ?_, ?_⟩
  all_goals decide +kernel

/-- the hypotheses of the positive theorems are met: the saw tooth and the constant with a knot inside -/
example : ∃ P Q R S : PerPwPoly ℚ ℚ, PerPwPoly.new saw = .ok P ∧ PerPwPoly.new ones = .ok Q ∧
    SplineOut.add (.per P) (.per Q) = .ok (.per R) ∧ R.call (7/4) = .ok (7/4) ∧
    SplineOut.mul (.per P) (.per Q) = .ok (.per S) ∧ S.call (7/4) = .ok (3/4) := by
  have hD : Separated (defaultTol ℚ) 2 saw.xk ones.xk := by
    refine ⟨by norm_num, ?_, ?_, by decide +kernel, by decide +kernel⟩
    · intro j h
      have : j = 0 := by simp [saw] at h; omega
      subst this; simp [saw]
    · intro j h
      have : j = 0 ∨ j = 1 := by simp [ones] at h; omega
      rcases this with rfl | rfl <;> simp [ones] <;> norm_num
  have hP : PerPwPoly.new saw = .ok ⟨saw, some 1⟩ := by decide +kernel
  have hQ : PerPwPoly.new ones = .ok ⟨ones, some 1⟩ := by decide +kernel
  obtain ⟨R, h1, _, _, _, _, h2⟩ := C82_add_partial saw_wf ones_wf hP hQ (by decide +kernel) (by decide +kernel) hD
  obtain ⟨S, h3, _, _, _, _, h4⟩ := C82_mul_partial saw_wf ones_wf hP hQ (by decide +kernel) (by decide +kernel) hD
  have c1 : (⟨saw, some 1⟩ : PerPwPoly ℚ ℚ).call (7/4) = .ok (3/4) := by decide +kernel
  have c2 : (⟨ones, some 1⟩ : PerPwPoly ℚ ℚ).call (7/4) = .ok 1 := by decide +kernel
  refine ⟨_, _, R, S, hP, hQ, h1, ?_, h3, ?_⟩
  · obtain ⟨a, b, ha, hb, hr⟩ := h2 (7/4)
    rw [c1] at ha; rw [c2] at hb; cases ha; cases hb
    rw [hr]; norm_num
  · obtain ⟨a, b, ha, hb, hr⟩ := h4 (7/4)
    rw [c1] at ha; rw [c2] at hb; cases ha; cases hb
    rw [hr]; norm_num

/-- a periodic function on other knots, half a period later -/
example : (PerPwPoly.reknot (K := ℚ) (V := ℚ) (adjInv ℚ) ⟨⟨[0, 1/2, 1], 2, [[0, 2], [0, 2], [1, -2], [0, -2]]⟩, some 1⟩ [1/2, 1, 3/2] (some 1)).bind (·.call (9/4)) = .ok (1/2) := by
  decide +kernel

end Npplus
