import Verif.Lemmas.RootsSc

/-! Helper lemmas about `roots`: what every stage returns. -/

set_option linter.unusedSectionVars false
set_option linter.unusedVariables false

namespace Npplus

open Spec Finset Roots

variable {K : Type} [Field K] [LinearOrder K] [IsStrictOrderedRing K]

theorem origin_succ (xk : List K) (j : ℕ) : origin xk (j + 1) = xk.getD j 0 := rfl

theorem pieceVal_origin {p : PwPoly K K} (hp : WF p) {i : ℕ} (hi : i ≤ p.xk.length) :
    pieceVal p i (origin p.xk i) = (piece p i).getD 0 0 := by
  unfold pieceVal
  rw [sub_self]
  have := piece_ne hp hi
  cases h : piece p i with
  | nil => exact absurd h this
  | cons a l => rw [polyVal_cons]; simp

theorem mem_crossKnots {p : PwPoly K K} (hp : WF p) (v x : K) :
    x ∈ crossKnots p v ↔ ∃ j, JumpsAcross p v j ∧ x = p.xk.getD j 0 := by
  have hup : ∀ j < p.xk.length, ((cup p v).getD j []).headD 0 = pieceVal p j (p.xk.getD j 0) - v := by
    intro j hj
    have hne := piece_ne hp hj.le
    have hlen : (PwPoly.addHead (-v) (piece p j)).length = p.n := by
      rw [PwPoly.length_addHead, hp.piece_length hj.le]
    have hpos := hp.pos
    have hd : ∀ l : List K, l.headD 0 = l.getD 0 0 := by intro l; cases l <;> rfl
    rw [cup_getD hp v hj, hd]
    unfold polyddxAll
    rw [polyddx_eq _ _ _ (by rw [hlen]; omega), tcList_getD _ _ _ _ (by omega), taylorCoeff_addHead _ hne,
      taylorCoeff_zero]
    simp [pieceVal, sub_eq_add_neg]
  have hlo : ∀ j < p.xk.length, ((coef p v).getD (j+1) []).headD 0 = pieceVal p (j+1) (p.xk.getD j 0) - v := by
    intro j hj
    have hd : ∀ l : List K, l.headD 0 = l.getD 0 0 := by intro l; cases l <;> rfl
    rw [coef_getD hp v (by omega), hd, addHead_getD _ (piece_ne hp (by omega)), ← origin_succ p.xk j,
      pieceVal_origin hp (by omega)]
    simp [sub_eq_add_neg]
  have hcl := cup_length hp v
  have hkl : (coef p v).length = p.xk.length + 1 := by rw [coef_length, hp.len]
  unfold crossKnots
  rw [List.mem_filterMap]
  constructor
  · rintro ⟨a, ha, h⟩
    obtain ⟨j, hj, e⟩ := List.getElem_of_mem ha
    have hj' : j < p.xk.length := by simp at hj; omega
    simp only [List.getElem_zipWith, List.getElem_tail] at e
    rw [← List.getD_eq_getElem (cup p v) [] (by omega), ← List.getD_eq_getElem (coef p v) [] (by omega),
      ← List.getD_eq_getElem p.xk 0 hj', hup j hj', hlo j hj'] at e
    rw [← e] at h
    simp only at h
    split at h
    · next h' => exact ⟨j, ⟨hj', h'⟩, by simpa using h.symm⟩
    · simp at h
  · rintro ⟨j, ⟨hj, h⟩, rfl⟩
    refine ⟨_, List.getElem_mem (n := j) (by simp; omega), ?_⟩
    simp only [List.getElem_zipWith, List.getElem_tail]
    rw [← List.getD_eq_getElem (cup p v) [] (by omega), ← List.getD_eq_getElem (coef p v) [] (by omega),
      ← List.getD_eq_getElem p.xk 0 hj, hup j hj, hlo j hj, if_pos h]

theorem foldl_max_le {α : Type} [LinearOrder α] (l : List α) (b c : α) :
    l.foldl max b ≤ c ↔ b ≤ c ∧ ∀ a ∈ l, a ≤ c := by
  induction l generalizing b with
  | nil => simp
  | cons a l ih => rw [List.foldl_cons, ih]; simp [and_assoc]

theorem lt_foldl_max {α : Type} [LinearOrder α] (l : List α) (b c : α) :
    l.foldl max b < c ↔ b < c ∧ ∀ a ∈ l, a < c := by
  induction l generalizing b with
  | nil => simp
  | cons a l ih => rw [List.foldl_cons, ih]; simp [and_assoc]

theorem foldl_max_mem {α : Type} [LinearOrder α] (l : List α) (b : α) :
    l.foldl max b = b ∨ l.foldl max b ∈ l := by
  induction l generalizing b with
  | nil => simp
  | cons a l ih =>
    rw [List.foldl_cons]
    rcases ih (max b a) with h | h
    · rw [h]
      rcases max_choice b a with h' | h' <;> simp [h']
    · right; exact List.mem_cons_of_mem _ h

/-- above the degree of the piece the coefficients vanish -/
theorem unitCoef_above {p : PwPoly K K} (hp : WF p) (v : K) {i : ℕ} (hi : i ≤ p.xk.length) {k : ℕ}
    (hk : pieceDeg p i < k) : unitCoef p v i k = 0 := by
  by_cases h : k < p.n
  · have := Nat.findGreatest_is_greatest hk (by omega)
    unfold unitCoef
    rw [not_not.mp this, if_neg (by omega)]; ring
  · exact unitCoef_zero_of_ge hp v hi (by omega)

theorem unitCoef_lead {p : PwPoly K K} (hp : WF p) (v : K) {i : ℕ} (hd : 1 ≤ pieceDeg p i) :
    unitCoef p v i (pieceDeg p i) ≠ 0 := by
  have h : (piece p i).getD (pieceDeg p i) 0 ≠ 0 := by
    have := Nat.findGreatest_of_ne_zero (P := fun k => (piece p i).getD k 0 ≠ 0) (m := pieceDeg p i) rfl (by omega)
    exact this
  unfold unitCoef
  rw [if_neg (by omega), sub_zero]
  exact mul_ne_zero h (pow_ne_zero _ (width_pos hp.ne hp.inc i).ne')

theorem pieceDeg_lt {p : PwPoly K K} (hp : WF p) (i : ℕ) : pieceDeg p i < p.n := by
  have := Nat.findGreatest_le (P := fun k => (piece p i).getD k 0 ≠ 0) (p.n - 1)
  have := hp.pos
  unfold pieceDeg; omega

theorem effDeg_eq {p : PwPoly K K} (hp : WF p) {v tol : K} (ht : 0 ≤ tol) (hneg : NotNegligible p v tol) {i : ℕ}
    (hm : MayVanish p v i) : effDeg tol (sc p v i) = pieceDeg p i := by
  have hi := hm.1
  have hl := sc_length hp v hi
  unfold effDeg
  simp only
  set m := ((sc p v i).map abs).foldl max 0 with hmdef
  have hm0 : 0 ≤ m := ((foldl_max_le _ _ _).mp le_rfl).1
  apply le_antisymm
  · rw [foldl_max_le]
    refine ⟨Nat.zero_le _, fun a ha => ?_⟩
    obtain ⟨k, hk, e⟩ := List.getElem_of_mem ha
    rw [List.getElem_mapIdx] at e
    rw [List.length_mapIdx] at hk
    by_contra hlt
    have hkd : pieceDeg p i < k := by
      split at e <;> omega
    rw [← List.getD_eq_getElem _ 0 hk, sc_getD hp v hi, unitCoef_above hp v hi hkd, abs_zero,
      if_neg (not_lt.mpr (mul_nonneg ht hm0))] at e
    omega
  · rcases Nat.eq_zero_or_pos (pieceDeg p i) with h0 | h0
    · omega
    · have hd := pieceDeg_lt hp i
      have hkey : tol * m < |unitCoef p v i (pieceDeg p i)| := by
        rcases foldl_max_mem ((sc p v i).map abs) 0 with h | h
        · rw [← hmdef] at h
          rw [h, mul_zero]
          exact abs_pos.mpr (unitCoef_lead hp v h0)
        · rw [← hmdef] at h
          obtain ⟨a, ha, e⟩ := List.mem_map.mp h
          obtain ⟨k, hk, e'⟩ := List.getElem_of_mem ha
          rw [← e, ← e', ← List.getD_eq_getElem _ 0 hk, sc_getD hp v hi]
          exact hneg i hm h0 k (by omega)
      refine ((foldl_max_le _ _ _).mp le_rfl).2 _ ?_
      have : pieceDeg p i = ((sc p v i).mapIdx (fun k a => if tol * m < |a| then k else 0))[pieceDeg p i]'(by
          rw [List.length_mapIdx]; omega) := by
        rw [List.getElem_mapIdx, ← List.getD_eq_getElem _ 0 (by omega), sc_getD hp v hi, if_pos hkey]
      exact List.mem_iff_getElem.mpr ⟨_, _, this.symm⟩

theorem mem_cols {p : PwPoly K K} (hp : WF p) (hn : 2 ≤ p.n) (v : K) (i : ℕ) : i ∈ cols p v ↔ MayVanish p v i := by
  unfold cols
  rw [List.mem_filter, List.mem_range, hp.len]
  constructor
  · rintro ⟨h1, h2⟩; exact (maybe_iff hp hn v (by omega)).mp h2
  · intro h; exact ⟨by have := h.1; omega, (maybe_iff hp hn v h.1).mpr h⟩

theorem cols_sorted (p : PwPoly K K) (v : K) : (cols p v).Pairwise (· < ·) :=
  List.pairwise_lt_range.filter _

theorem cols_head {p : PwPoly K K} (hp : WF p) {v : K} (h : Roots.maybe p v 0 = true) :
    ∃ r, cols p v = 0 :: r := by
  unfold cols
  rw [hp.len, List.range_succ_eq_map, List.filter_cons, if_pos h]
  exact ⟨_, rfl⟩

theorem cols_last {p : PwPoly K K} (hp : WF p) {v : K} (h : Roots.maybe p v p.xk.length = true) :
    ∃ r, cols p v = r ++ [p.xk.length] := by
  unfold cols
  rw [hp.len, List.range_succ, List.filter_append]
  refine ⟨(List.range p.xk.length).filter (fun i => Roots.maybe p v i), ?_⟩
  congr 1
  simp [h]

theorem degs_eq {p : PwPoly K K} (hp : WF p) (hn : 2 ≤ p.n) {v tol : K} (ht : 0 ≤ tol) (hneg : NotNegligible p v tol) :
    degs p v tol = (cols p v).map (pieceDeg p) :=
  List.map_congr_left fun i hi => effDeg_eq hp ht hneg ((mem_cols hp hn v i).mp hi)

theorem sum_trunc {p : PwPoly K K} (hp : WF p) (v : K) {i : ℕ} (hi : i ≤ p.xk.length) (t : K) :
    ∑ k ∈ range p.n, unitCoef p v i k * t ^ k = ∑ k ∈ range (pieceDeg p i + 1), unitCoef p v i k * t ^ k := by
  symm
  refine Finset.sum_subset (fun k hk => ?_) (fun k _ hk => ?_)
  · rw [mem_range] at hk ⊢; have := pieceDeg_lt hp i; omega
  · rw [mem_range] at hk; rw [unitCoef_above hp v hi (by omega), zero_mul]

/-- `t` is a root of piece `i` in the unit variable. -/
def UnitRoot (p : PwPoly K K) (v : K) (i : ℕ) (t : K) : Prop :=
  pieceVal p i (t * width p.xk i + origin p.xk i) = v

theorem unitRoot_iff {p : PwPoly K K} (hp : WF p) (v : K) {i : ℕ} (hi : i ≤ p.xk.length) (t : K) :
    UnitRoot p v i t ↔ ∑ k ∈ range (pieceDeg p i + 1), unitCoef p v i k * t ^ k = 0 := by
  rw [← sum_trunc hp v hi, unit_val hp v hi, sub_eq_zero]; rfl

theorem linXi_iff {p : PwPoly K K} (hp : WF p) (v : K) {i : ℕ} (hi : i ≤ p.xk.length) (hd : pieceDeg p i = 1) (t : K) :
    UnitRoot p v i t ↔ t = linXi p v i := by
  have h1 := unitCoef_lead hp v (i := i) (by omega)
  rw [hd] at h1
  rw [unitRoot_iff hp v hi, hd]
  unfold linXi
  rw [sc_getD hp v hi, sc_getD hp v hi, eq_div_iff h1]
  simp only [sum_range_succ, sum_range_zero, pow_zero, pow_one]
  constructor
  · intro h; linear_combination h
  · intro h; linear_combination h

theorem unscale_eq {p : PwPoly K K} (hp : WF p) {i : ℕ} (hi : i ≤ p.xk.length) (t : K) :
    unscale p i t = t * width p.xk i + origin p.xk i := by
  unfold unscale PwPoly.xk0
  rw [dxs_getD hp.ne hi, mkXk0_getD hp.ne]

theorem zipIdx_mem {α : Type} {l : List α} {a : α} {k : ℕ} : (a, k) ∈ l.zipIdx ↔ l[k]? = some a := by
  rw [List.mem_zipIdx_iff_getElem?]

theorem sorted_head {l : List ℕ} (hs : l.Pairwise (· < ·)) {r : List ℕ} (h : l = 0 :: r) {j k : ℕ}
    (hj : l[k]? = some j) : k = 0 ↔ j = 0 := by
  subst h
  cases k with
  | zero => simp at hj; simp [← hj]
  | succ k =>
    simp at hj
    have := (List.pairwise_cons.mp hs).1 j (List.mem_of_getElem? hj)
    constructor <;> intro h <;> omega

/-- what the linear part returns -/
theorem mem_linRoots {p : PwPoly K K} (hp : WF p) (hn : 2 ≤ p.n) {v tol : K} (ht : 0 ≤ tol)
    (hneg : NotNegligible p v tol) (x : K) :
    x ∈ linRoots p v tol ↔ ∃ j, MayVanish p v j ∧ pieceDeg p j = 1 ∧ x = linXi p v j * width p.xk j + origin p.xk j ∧
      ((LinFirst p v ∧ (j = 0 → linXi p v j ≤ 0) ∧ (j ≠ 0 → 0 ≤ linXi p v j)) ∨
       (¬ LinFirst p v ∧ ¬ LinLast p v ∧ 0 ≤ linXi p v j ∧ linXi p v j ≤ 1) ∨
       (¬ LinFirst p v ∧ LinLast p v ∧ 0 ≤ linXi p v j)) := by
  have hdeg : ∀ i ∈ cols p v, (effDeg tol (sc p v i) == 1) = decide (pieceDeg p i = 1) := by
    intro i hi
    rw [effDeg_eq hp ht hneg ((mem_cols hp hn v i).mp hi)]
    rfl
  have hfilt : (cols p v).filter (fun i => effDeg tol (sc p v i) == 1) = (cols p v).filter (fun i => decide (pieceDeg p i = 1)) :=
    List.filter_congr hdeg
  have hfirst : (Roots.maybe p v 0 && (degs p v tol).getD 0 0 == 1) = true ↔ LinFirst p v := by
    rw [Bool.and_eq_true]
    unfold LinFirst
    rw [← maybe_iff hp hn v (Nat.zero_le _)]
    refine and_congr_right fun h => ?_
    obtain ⟨r, hr⟩ := cols_head hp h
    rw [degs_eq hp hn ht hneg, hr]
    simp
  have hlast : (Roots.maybe p v p.xk.length && (degs p v tol).getLastD 0 == 1) = true ↔ LinLast p v := by
    rw [Bool.and_eq_true]
    unfold LinLast
    rw [← maybe_iff hp hn v le_rfl]
    refine and_congr_right fun h => ?_
    obtain ⟨r, hr⟩ := cols_last hp h
    rw [degs_eq hp hn ht hneg, hr]
    simp
  unfold linRoots
  simp only [hfilt]
  rw [List.mem_filterMap]
  have hsort : ((cols p v).filter (fun i => decide (pieceDeg p i = 1))).Pairwise (· < ·) := (cols_sorted p v).filter _
  have hhead : LinFirst p v → ∃ r, (cols p v).filter (fun i => decide (pieceDeg p i = 1)) = 0 :: r := by
    intro h
    obtain ⟨r, hr⟩ := cols_head hp ((maybe_iff hp hn v (Nat.zero_le _)).mpr h.1)
    rw [hr, List.filter_cons, if_pos (by simpa using h.2)]
    exact ⟨_, rfl⟩
  have hmem : ∀ j k, (j, k) ∈ ((cols p v).filter (fun i => decide (pieceDeg p i = 1))).zipIdx →
      MayVanish p v j ∧ pieceDeg p j = 1 := by
    intro j k h
    have := List.mem_of_getElem? (zipIdx_mem.mp h)
    rw [List.mem_filter, mem_cols hp hn, decide_eq_true_eq] at this
    exact this
  have hmask : ∀ j k, (j, k) ∈ ((cols p v).filter (fun i => decide (pieceDeg p i = 1))).zipIdx →
      ((if (Roots.maybe p v 0 && (degs p v tol).getD 0 0 == 1) = true then
          (if k = 0 then decide (linXi p v j ≤ 0) else decide (0 ≤ linXi p v j))
        else if (!(Roots.maybe p v p.xk.length && (degs p v tol).getLastD 0 == 1)) = true then
          decide (0 ≤ linXi p v j) && decide (linXi p v j ≤ 1)
        else decide (0 ≤ linXi p v j)) = true ↔
       ((LinFirst p v ∧ (j = 0 → linXi p v j ≤ 0) ∧ (j ≠ 0 → 0 ≤ linXi p v j)) ∨
       (¬ LinFirst p v ∧ ¬ LinLast p v ∧ 0 ≤ linXi p v j ∧ linXi p v j ≤ 1) ∨
       (¬ LinFirst p v ∧ LinLast p v ∧ 0 ≤ linXi p v j))) := by
    intro j k h
    by_cases h1 : LinFirst p v
    · obtain ⟨r, hr⟩ := hhead h1
      have hk := sorted_head hsort hr (zipIdx_mem.mp h)
      rw [if_pos (hfirst.mpr h1)]
      by_cases h0 : k = 0
      · rw [if_pos h0]; simp [h1, hk.mp h0]
      · rw [if_neg h0]
        have : j ≠ 0 := fun h => h0 (hk.mpr h)
        simp [h1, this]
    · rw [if_neg (fun h => h1 (hfirst.mp h))]
      by_cases h2 : LinLast p v
      · rw [if_neg (by rw [hlast.mpr h2]; simp)]; simp [h1, h2]
      · rw [if_pos (by
          rw [Bool.not_eq_true', Bool.eq_false_iff]; exact fun h => h2 (hlast.mp h))]
        simp [h1, h2]
  constructor
  · rintro ⟨⟨j, k⟩, hjk, h⟩
    obtain ⟨hm, hd⟩ := hmem j k hjk
    rw [Option.ite_none_right_eq_some] at h
    refine ⟨j, hm, hd, ?_, (hmask j k hjk).mp h.1⟩
    rw [← unscale_eq hp hm.1]
    simpa using h.2.symm
  · rintro ⟨j, hm, hd, rfl, h⟩
    have : j ∈ (cols p v).filter (fun i => decide (pieceDeg p i = 1)) := by
      rw [List.mem_filter, mem_cols hp hn, decide_eq_true_eq]; exact ⟨hm, hd⟩
    obtain ⟨k, hk⟩ := List.mem_iff_getElem?.mp this
    have hjk := zipIdx_mem.mpr hk
    refine ⟨(j, k), hjk, ?_⟩
    simp only
    rw [if_pos ((hmask j k hjk).mpr h), unscale_eq hp hm.1]

end Npplus
