import Verif.Lemmas.PwPoly
import Verif.Spec.Knots
import Mathlib.Data.List.Sort
import Mathlib.Algebra.Order.Field.Basic

/-! Helper lemmas about `allknots` and `addknots`. -/

set_option linter.unusedSectionVars false
namespace Npplus
open Spec

variable {K : Type} [Field K] [LinearOrder K] [IsStrictOrderedRing K]
variable {V : Type} [AddCommGroup V] [Module K V]

theorem inPiece_knot {xk : List K} (hs : xk.Pairwise (· < ·)) {j : ℕ} (hj : j < xk.length) :
    InPiece xk j xk[j] := by
  refine ⟨hj.le, fun k hk hkj => ?_, fun k hk hjk => ?_⟩
  · exact List.pairwise_iff_getElem.mp hs k j hk hj hkj
  · rcases Nat.eq_or_lt_of_le hjk with h | h
    · simp [h]
    · exact le_of_lt (List.pairwise_iff_getElem.mp hs j k hj hk h)

namespace PwPoly

theorem farPoints_sublist (tol : K) (xk yk : List K) : (farPoints tol xk yk).Sublist yk :=
  List.filter_sublist

/-- The extended spacing array of `allknots`. -/
def extGaps (xk : List K) : List K :=
  (diffs xk).take 1 ++ diffs xk ++ (diffs xk).drop ((diffs xk).length - 1)

theorem mem_farPoints {tol : K} {xk yk : List K} {y : K} : y ∈ farPoints tol xk yk ↔
    y ∈ yk ∧ (extGaps xk).getD (searchsorted xk y) 0 * tol < |y - xk.getD (searchsorted xk y - 1) 0| ∧
    (extGaps xk).getD (searchsorted xk y) 0 * tol <
      |y - xk.getD (min (searchsorted xk y) (xk.length - 1)) 0| := by
  simp [farPoints, extGaps]

theorem mem_extGaps {xk : List K} {d : K} (h : d ∈ extGaps xk) : d ∈ diffs xk := by
  simp only [extGaps, List.mem_append] at h
  rcases h with (h | h) | h
  · exact List.mem_of_mem_take h
  · exact h
  · exact List.mem_of_mem_drop h

theorem diffs_pos {xk : List K} (hs : xk.Pairwise (· < ·)) {d : K} (h : d ∈ diffs xk) : 0 < d := by
  obtain ⟨j, hj, rfl⟩ := List.getElem_of_mem h
  have hl := length_diffs xk
  rw [diffs_getElem, List.getD_eq_getElem _ _ (by omega), List.getD_eq_getElem _ _ (by omega), sub_pos]
  exact List.pairwise_iff_getElem.mp hs j (j + 1) (by omega) (by omega) (by omega)

theorem diffs_le {xk : List K} {D : K} (hg : GapsLE D xk) {d : K} (h : d ∈ diffs xk) : d ≤ D := by
  obtain ⟨j, hj, rfl⟩ := List.getElem_of_mem h
  have hl := length_diffs xk
  rw [diffs_getElem, List.getD_eq_getElem _ _ (by omega), List.getD_eq_getElem _ _ (by omega)]
  exact hg j (by omega)

theorem extGaps_getD_nonneg {xk : List K} (hs : xk.Pairwise (· < ·)) (i : ℕ) :
    0 ≤ (extGaps xk).getD i 0 := by
  by_cases h : i < (extGaps xk).length
  · rw [List.getD_eq_getElem _ _ h]
    exact (diffs_pos hs (mem_extGaps (List.getElem_mem h))).le
  · rw [List.getD_eq_default _ _ (by omega)]

theorem extGaps_getD_le {xk : List K} {D : K} (hD : 0 ≤ D) (hg : GapsLE D xk) (i : ℕ) :
    (extGaps xk).getD i 0 ≤ D := by
  by_cases h : i < (extGaps xk).length
  · rw [List.getD_eq_getElem _ _ h]
    exact diffs_le hg (mem_extGaps (List.getElem_mem h))
  · rw [List.getD_eq_default _ _ (by omega)]; exact hD

theorem farPoints_notMem {tol : K} (ht : 0 ≤ tol) {xk yk : List K} (hs : xk.Pairwise (· < ·)) {y : K}
    (hy : y ∈ farPoints tol xk yk) : y ∉ xk := by
  intro hx
  obtain ⟨j, hj, rfl⟩ := List.getElem_of_mem hx
  have e := (inPiece_knot hs hj).eq_searchsorted
  have h := (mem_farPoints.mp hy).2.2
  rw [e] at h
  have : min j (xk.length - 1) = j := by omega
  rw [this, List.getD_eq_getElem _ _ hj, sub_self, abs_zero] at h
  exact absurd h (not_lt.mpr (mul_nonneg (extGaps_getD_nonneg hs _) ht))

theorem sorted_union {xk zk : List K} (h1 : xk.Pairwise (· < ·)) (h2 : zk.Pairwise (· < ·))
    (hd : ∀ z ∈ zk, z ∉ xk) : ((xk ++ zk).insertionSort (· ≤ ·)).Pairwise (· < ·) := by
  have hn : (xk ++ zk).Nodup := by
    rw [List.nodup_append]
    refine ⟨h1.imp fun h => ne_of_lt h, h2.imp fun h => ne_of_lt h, ?_⟩
    intro a ha b hb hab
    exact hd b hb (hab ▸ ha)
  have hn' := (List.perm_insertionSort (· ≤ ·) (xk ++ zk)).nodup_iff.mpr hn
  have hs := List.pairwise_insertionSort (· ≤ ·) (xk ++ zk)
  have := hs.and hn'
  exact this.imp fun h => lt_of_le_of_ne h.1 h.2

/-- All that is needed about one step of `allknots`. -/
theorem allknotsStep_spec {tol : K} (ht : 0 ≤ tol) {xk yk : List K} (hx : Knots xk) (hy : Knots yk) :
    (allknotsStep tol xk yk = .ok none ∧ (xk = yk ∨ ∃ x y, xk = [x] ∧ yk = [y] ∧
        |x - y| ≤ tol + tol * |y|)) ∨
    ∃ u, allknotsStep tol xk yk = .ok (some u) ∧ Knots u ∧ xk ≠ yk ∧
      (∀ z ∈ u, z ∈ xk ∨ z ∈ yk) ∧
      (yk.length ≤ xk.length → xk ⊆ u) ∧ (xk.length < yk.length → yk ⊆ u) ∧
      (xk.length = 1 → yk.length = 1 → ∀ x ∈ xk, ∀ y ∈ yk, tol + tol * |y| < |x - y| ∧ y ∈ u) ∧
      (∀ D, 0 ≤ D → GapsLE D xk → GapsLE D yk → ∀ z, z ∈ xk ∨ z ∈ yk → z ∉ u →
        ∃ w ∈ u, |z - w| ≤ tol * D ∧ (w ∈ xk ∨ w ∈ yk) ∧ (z ∈ xk → w ∈ yk) ∧ (z ∈ yk → w ∈ xk)) := by
  unfold allknotsStep
  by_cases he : xk = yk
  · left; simp [he]
  simp only [he, if_false]
  -- generic statement for the ordered pair (longer, shorter)
  have gen : ∀ a b : List K, Knots a → Knots b → 1 < a.length →
      Knots ((a ++ farPoints tol a b).insertionSort (· ≤ ·)) ∧
      (∀ z ∈ (a ++ farPoints tol a b).insertionSort (· ≤ ·), z ∈ a ∨ z ∈ b) ∧
      a ⊆ (a ++ farPoints tol a b).insertionSort (· ≤ ·) ∧
      ∀ D, 0 ≤ D → GapsLE D a → ∀ z, z ∈ b → z ∉ (a ++ farPoints tol a b).insertionSort (· ≤ ·) →
        ∃ w ∈ a, |z - w| ≤ tol * D := by
    intro a b ha hb hl
    refine ⟨⟨?_, ?_⟩, ?_, ?_, ?_⟩
    · intro h
      have := congrArg List.length h
      rw [List.length_insertionSort, List.length_append, List.length_nil] at this; omega
    · exact sorted_union ha.inc (hb.inc.sublist (farPoints_sublist _ _ _))
        fun z hz => farPoints_notMem ht ha.inc hz
    · intro z hz
      rw [List.mem_insertionSort, List.mem_append] at hz
      exact hz.imp id fun h => (farPoints_sublist _ _ _).subset h
    · intro z hz
      rw [List.mem_insertionSort, List.mem_append]; exact Or.inl hz
    · intro D hD hg z hz hzu
      rw [List.mem_insertionSort, List.mem_append, not_or, mem_farPoints] at hzu
      have h := hzu.2
      have hb' : (extGaps a).getD (searchsorted a z) 0 * tol ≤ tol * D := by
        rw [mul_comm]; exact mul_le_mul_of_nonneg_left (extGaps_getD_le hD hg _) ht
      by_cases h1 : (extGaps a).getD (searchsorted a z) 0 * tol < |z - a.getD (searchsorted a z - 1) 0|
      · have h2 := not_lt.mp fun h2 => h ⟨hz, h1, h2⟩
        refine ⟨a.getD (min (searchsorted a z) (a.length - 1)) 0, ?_, h2.trans hb'⟩
        rw [List.getD_eq_getElem _ _ (by omega)]; exact List.getElem_mem _
      · rw [not_lt] at h1
        refine ⟨a.getD (searchsorted a z - 1) 0, ?_, h1.trans hb'⟩
        have := searchsorted_le a z
        rw [List.getD_eq_getElem _ _ (by omega)]; exact List.getElem_mem _
  have hxl : 1 ≤ xk.length := List.length_pos_iff.mpr hx.ne
  have hyl : 1 ≤ yk.length := List.length_pos_iff.mpr hy.ne
  by_cases hsw : xk.length < yk.length
  · simp only [hsw, if_true]
    have h1 : 1 < yk.length := by omega
    simp only [h1, if_true]
    obtain ⟨g1, g2, g3, g4⟩ := gen yk xk hy hx h1
    right
    refine ⟨_, rfl, g1, he, fun z hz => (g2 z hz).symm, fun h => absurd h (by omega), fun _ => g3,
      fun _ h => absurd h (by omega), ?_⟩
    intro D hD _ hg z hz hzu
    have hzx : z ∈ xk := hz.resolve_right fun h => hzu (g3 h)
    obtain ⟨w, hw, hwd⟩ := g4 D hD hg z hzx hzu
    exact ⟨w, g3 hw, hwd, Or.inr hw, fun _ => hw, fun h => absurd (g3 h) hzu⟩
  · simp only [hsw, if_false]
    by_cases h1 : 1 < xk.length
    · simp only [h1, if_true]
      obtain ⟨g1, g2, g3, g4⟩ := gen xk yk hx hy h1
      right
      refine ⟨_, rfl, g1, he, g2, fun _ => g3, fun h => h.elim, fun h => absurd h (by omega), ?_⟩
      intro D hD hg _ z hz hzu
      have hzy : z ∈ yk := hz.resolve_left fun h => hzu (g3 h)
      obtain ⟨w, hw, hwd⟩ := g4 D hD hg z hzy hzu
      exact ⟨w, g3 hw, hwd, Or.inl hw, fun h => absurd (g3 h) hzu, fun _ => hw⟩
    · simp only [h1, if_false]
      obtain ⟨x, rfl⟩ := List.length_eq_one_iff.mp (show xk.length = 1 by omega)
      obtain ⟨y, rfl⟩ := List.length_eq_one_iff.mp (show yk.length = 1 by simp at hsw; omega)
      simp only
      by_cases hc : |x - y| ≤ tol + tol * |y|
      · left; simp [hc]
      · right
        simp only [hc, if_false]
        have hxy : x ≠ y := fun h => he (by rw [h])
        have mem : ∀ z, z ∈ ([x] ++ [y]).insertionSort (· ≤ ·) ↔ z = x ∨ z = y := by
          intro z; rw [List.mem_insertionSort]; simp
        refine ⟨_, rfl, ⟨?_, ?_⟩, he, ?_, ?_, ?_, ?_, ?_⟩
        · intro h
          have := congrArg List.length h
          rw [List.length_insertionSort] at this; simp at this
        · exact sorted_union (by simp) (by simp) (by simpa using hxy.symm)
        · intro z hz; rw [mem] at hz; simpa using hz
        · intro _ z hz; rw [mem]; left; simpa using hz
        · simp
        · intro _ _ a ha b hb
          simp only [List.mem_singleton] at ha hb
          subst ha hb
          exact ⟨not_le.mp hc, (mem _).mpr (Or.inr rfl)⟩
        · intro D _ _ _ z hz hzu
          rw [mem] at hzu
          simp at hz; exact absurd hz hzu

/-- Separated arrays are merged without dropping any knot. -/
theorem allknotsStep_separated {tol D : K} (ht : 0 ≤ tol) {xk yk : List K} (hx : Knots xk)
    (hy : Knots yk) (hs : Separated tol D xk yk) :
    ∃ r, allknotsStep tol xk yk = .ok r ∧
      ∀ z, z ∈ r.getD xk ↔ z ∈ xk ∨ z ∈ yk := by
  rcases allknotsStep_spec ht hx hy with ⟨h1, h2⟩ | ⟨u, h1, hu, hne, hsub, hxs, hys, hsing, hdrop⟩
  · refine ⟨none, h1, fun z => ?_⟩
    simp only [Option.getD_none]
    rcases h2 with h2 | ⟨x, y, rfl, rfl, h2⟩
    · rw [h2]; simp
    · have e : x = y := by
        rcases hs.far x (by simp) y (by simp) with h | h
        · exact h
        · have := hs.single (by simp) (by simp) y (by simp)
          have : tol * (1 + |y|) ≤ tol * D := mul_le_mul_of_nonneg_left this ht
          rw [mul_add, mul_one] at this
          exact absurd h2 (not_le.mpr (lt_of_le_of_lt this h))
      rw [e]; simp
  · refine ⟨some u, h1, fun z => ?_⟩
    simp only [Option.getD_some]
    refine ⟨hsub z, fun hz => ?_⟩
    by_contra hzu
    obtain ⟨w, hw, hd, _, hw1, hw2⟩ := hdrop D hs.nonneg hs.gx hs.gy z hz hzu
    rcases hz with hz | hz
    · rcases hs.far z hz w (hw1 hz) with h | h
      · exact hzu (h ▸ hw)
      · exact absurd hd (not_le.mpr h)
    · rcases hs.far w (hw2 hz) z hz with h | h
      · exact hzu (h ▸ hw)
      · rw [abs_sub_comm] at h; exact absurd hd (not_le.mpr h)

/-! ### re-expansion on new knots -/

/-- The source piece of new piece `i`. -/
def srcPiece (p : PwPoly K V) (u : List K) (i : ℕ) : ℕ :=
  if i = 0 then 0 else if i = u.length then p.xk.length
  else searchsorted p.xk ((1/2 : K) * (u.getD i 0 + u.getD (i - 1) 0))

theorem srcPiece_le (p : PwPoly K V) (u : List K) (i : ℕ) : srcPiece p u i ≤ p.xk.length := by
  unfold srcPiece
  split
  · omega
  · split
    · exact le_rfl
    · exact searchsorted_le _ _

theorem addknotsRaw_length {p : PwPoly K V} {u : List K} (hu : u ≠ []) :
    (p.addknotsRaw u).c.length = u.length + 1 := by
  have : 1 ≤ u.length := List.length_pos_iff.mpr hu
  simp [addknotsRaw, mkXk0_length hu]; omega

theorem addknotsRaw_piece {p : PwPoly K V} (hp : WF p) {u : List K} (hu : u ≠ []) (i : ℕ)
    (hi : i ≤ u.length) :
    piece (p.addknotsRaw u) i = tcList (piece p (srcPiece p u i))
      (origin u i - origin p.xk (srcPiece p u i)) (p.n - 1) := by
  have h1 : 1 ≤ u.length := List.length_pos_iff.mpr hu
  unfold piece
  rw [List.getD_eq_getElem _ _ (by rw [addknotsRaw_length hu]; omega)]
  have key : (([0] ++ (List.zipWith (fun a b => (1/2 : K) * (b + a)) u u.tail).map
      (searchsorted p.xk) ++ [p.xk.length]) : List ℕ)[i]'(by simp; omega) = srcPiece p u i := by
    unfold srcPiece
    by_cases h0 : i = 0
    · subst h0; simp
    · simp only [h0, if_false]
      by_cases hl : i = u.length
      · subst hl
        rw [List.getElem_append_right (by simp; omega)]
        simp
      · simp only [hl, if_false]
        rw [List.getElem_append_left (by simp; omega), List.getElem_append_right (by simp; omega)]
        simp only [List.length_cons, List.length_nil, List.getElem_map, List.getElem_zipWith,
          List.getElem_tail]
        rw [List.getD_eq_getElem _ _ (by omega), List.getD_eq_getElem _ _ (by omega)]
        congr 4
        omega
  unfold addknotsRaw
  simp only [List.getElem_zipWith, key]
  have e1 : (mkXk0 u)[i]'(by rw [mkXk0_length hu]; omega) = origin u i := by
    rw [← mkXk0_getD hu, List.getD_eq_getElem]
  rw [e1, xk0, mkXk0_getD hp.ne]
  have hl := hp.piece_length (srcPiece_le p u i)
  unfold piece at hl
  have := hp.pos
  rw [polyddx_eq _ _ _ (by omega)]

theorem addknotsRaw_WF {p : PwPoly K V} (hp : WF p) {u : List K} (hu : Knots u) :
    WF (p.addknotsRaw u) := by
  refine ⟨hu.ne, hu.inc, addknotsRaw_length hu.ne, hp.pos, ?_⟩
  intro l hl
  obtain ⟨i, hi, rfl⟩ := List.getElem_of_mem hl
  have := addknotsRaw_piece hp hu.ne i (by rw [addknotsRaw_length hu.ne] at hi; omega)
  unfold piece at this
  rw [List.getD_eq_getElem _ _ hi] at this
  rw [this, length_tcList]
  have := hp.pos
  simp only [addknotsRaw]; omega

theorem addknotsRaw_pieceDeriv {p : PwPoly K V} (hp : WF p) {u : List K} (hu : Knots u) (i : ℕ)
    (hi : i ≤ u.length) (x : K) (k : ℕ) :
    pieceDeriv (p.addknotsRaw u) i x k = pieceDeriv p (srcPiece p u i) x k := by
  unfold pieceDeriv
  rw [addknotsRaw_piece hp hu.ne i hi, polyDeriv_eq, taylorCoeff_tcList, polyDeriv_eq]
  · congr 2
    simp only [addknotsRaw]; ring
  · have := hp.piece_length (srcPiece_le p u i)
    omega

/-- `x` sees the right source piece when no lost knot shares its new interval. -/
theorem srcPiece_eq {p : PwPoly K V} (_hp : WF p) {u : List K} (hu : Knots u) {i : ℕ} {x : K}
    (hi : InPiece u i x) (hd : ∀ k ∈ p.xk, k ∉ u → ¬ InPiece u i k) :
    srcPiece p u i = searchsorted p.xk x := by
  have h1 : 1 ≤ u.length := List.length_pos_iff.mpr hu.ne
  have notmem : ∀ k ∈ p.xk, (∀ j (h : j < u.length), j < i → u[j] < k) →
      (∀ j (h : j < u.length), i ≤ j → k ≤ u[j]) → ∃ h : i < u.length, k = u[i] := by
    intro k hk ha hb
    have hin : InPiece u i k := ⟨hi.1, ha, hb⟩
    by_cases hku : k ∈ u
    · obtain ⟨j, hj, rfl⟩ := List.getElem_of_mem hku
      have e := hin.eq_searchsorted
      rw [(inPiece_knot hu.inc hj).eq_searchsorted] at e
      subst e; exact ⟨hj, rfl⟩
    · exact absurd hin (hd k hk hku)
  unfold srcPiece
  split
  · rename_i h0
    subst h0
    rw [searchsorted_eq_zero]
    intro a ha
    by_contra hlt
    rw [not_le] at hlt
    have hx0 := hi.2.2 0 (by omega) le_rfl
    obtain ⟨h, e⟩ := notmem a ha (fun j _ hj => absurd hj (by omega))
      (fun j hj _ => le_of_lt (lt_of_lt_of_le hlt (hi.2.2 j hj (by omega))))
    rw [e] at hlt
    exact absurd hlt (not_lt.mpr hx0)
  · rename_i h0
    split
    · rename_i hl
      subst hl
      rw [searchsorted_eq_length]
      intro a ha
      by_contra hlt
      rw [not_lt] at hlt
      obtain ⟨h, _⟩ := notmem a ha (fun j hj hj' => lt_of_lt_of_le (hi.2.1 j hj hj') hlt)
        (fun j hj hj' => absurd hj (by omega))
      omega
    · rename_i hl
      have hil : i < u.length := by have := hi.1; omega
      rw [List.getD_eq_getElem _ _ hil, List.getD_eq_getElem _ _ (by omega)]
      have hlo := hi.2.1 (i - 1) (by omega) (by omega)
      have hhi := hi.2.2 i hil le_rfl
      have hgap : u[i - 1] < u[i] := lt_of_lt_of_le hlo hhi
      set mid : K := (1/2 : K) * (u[i] + u[i - 1]) with hmid
      have hm1 : u[i - 1] < mid := by rw [hmid]; linarith
      have hm2 : mid < u[i] := by rw [hmid]; linarith
      unfold searchsorted
      apply List.countP_congr
      intro k hk
      simp only [decide_eq_true_eq]
      -- the knot k is at most u[i-1] or at least u[i]
      have dich : k ≤ u[i - 1] ∨ u[i] ≤ k := by
        by_contra hcon
        rw [not_or, not_le, not_le] at hcon
        have ha : ∀ j (h : j < u.length), j < i → u[j] < k := by
          intro j hj hji
          rcases Nat.eq_or_lt_of_le (show j ≤ i - 1 by omega) with h | h
          · subst h; exact hcon.1
          · exact lt_trans (List.pairwise_iff_getElem.mp hu.inc j (i - 1) hj (by omega) h) hcon.1
        have hb : ∀ j (h : j < u.length), i ≤ j → k ≤ u[j] := by
          intro j hj hij
          rcases Nat.eq_or_lt_of_le hij with h | h
          · subst h; exact hcon.2.le
          · exact (lt_trans hcon.2 (List.pairwise_iff_getElem.mp hu.inc i j hil hj h)).le
        obtain ⟨_, e⟩ := notmem k hk ha hb
        exact absurd e (ne_of_lt hcon.2)
      rcases dich with h | h
      · exact ⟨fun _ => lt_of_le_of_lt h hlo, fun _ => lt_of_le_of_lt h hm1⟩
      · exact ⟨fun h' => absurd (lt_trans (lt_of_le_of_lt h h') hm2) (lt_irrefl _),
          fun h' => absurd (lt_of_lt_of_le (lt_of_le_of_lt h h') hhi) (lt_irrefl _)⟩

/-- Local exactness of re-expansion. -/
theorem addknotsRaw_call {p : PwPoly K V} (hp : WF p) {u : List K} (hu : Knots u) (x : K)
    (hd : ∀ k ∈ p.xk, k ∉ u → ¬ SameInterval u x k) :
    (p.addknotsRaw u).call x = p.call x := by
  have hi := inPiece_searchsorted hu.inc x
  have hs := srcPiece_eq hp hu hi (fun k hk hku hin => hd k hk hku ⟨_, hi, hin⟩)
  rw [call_eq (addknotsRaw_WF hp hu), call_eq hp]
  have := addknotsRaw_pieceDeriv hp hu (searchsorted u x) (searchsorted_le _ _) x 0
  unfold pieceDeriv at this
  rw [polyDeriv_zero, polyDeriv_zero, hs] at this
  exact this

end PwPoly
end Npplus
