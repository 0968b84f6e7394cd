import Verif.Lemmas.SplineOk
import Verif.Lemmas.SignVar
import Mathlib.Data.Nat.Count

/-!
# The homogeneous spline problem: sign variations along the knots
-/

set_option linter.unusedSectionVars false

namespace Npplus.Spl

open Spec Finset PwPoly SignVar SignType

variable {K : Type} [Field K] [LinearOrder K] [IsStrictOrderedRing K]

/-- `[f 0, …, f n]` -/
def lst (n : ℕ) (f : ℕ → K) : List K := (List.range (n + 1)).map f

theorem bid_getD : ∀ (l : List K) (k : ℕ), (bid l).getD k 0 = l.getD k 0 + l.getD (k + 1) 0
  | [], k => by simp [bid]
  | [a], 0 => by simp [bid]
  | [a], k + 1 => by simp [bid]
  | a :: b :: l, 0 => by simp [bid]
  | a :: b :: l, k + 1 => by
    rw [bid, List.getD_cons_succ, bid_getD (b :: l) k]; rfl

theorem bid_length : ∀ l : List K, (bid l).length = l.length
  | [] => rfl
  | [a] => rfl
  | a :: b :: l => by rw [bid, List.length_cons, bid_length (b :: l)]; rfl

theorem shift_length : ∀ l : List K, (shift l).length = l.length
  | [] => rfl
  | a :: l => by rw [shift, bid_length, List.length_cons, shift_length l]; rfl

theorem shift_getD : ∀ (l : List K) (k : ℕ), (shift l).getD k 0 = ∑ q ∈ range l.length, (q.choose k : K) * l.getD q 0
  | [], k => by simp [shift]
  | a :: l, k => by
    rw [shift, bid_getD, List.length_cons, sum_range_succ']
    simp only [List.getD_cons_succ, List.getD_cons_zero]
    rw [shift_getD l k]
    cases k with
    | zero => simp [add_comm]
    | succ k =>
      rw [List.getD_cons_succ, shift_getD l k, ← sum_add_distrib]
      simp only [Nat.choose_zero_succ, Nat.cast_zero, zero_mul, add_zero]
      refine sum_congr rfl fun q _ => ?_
      rw [Nat.choose_succ_succ]; push_cast; ring

theorem shift_lst (n : ℕ) (f : ℕ → K) : shift (lst n f) = lst n fun k => ∑ q ∈ range (n + 1), (q.choose k : K) * f q := by
  apply List.ext_getElem
  · rw [shift_length]; simp [lst]
  · intro k h1 h2
    rw [← List.getD_eq_getElem (d := (0 : K)) _ h1, shift_getD]
    have hl : (lst n f).length = n + 1 := by simp [lst]
    rw [hl]
    simp only [lst, List.getElem_map, List.getElem_range]
    refine sum_congr rfl fun q hq => ?_
    rw [List.getD_eq_getElem _ _ (by simpa using mem_range.1 hq)]; simp

theorem lst_split {n d : ℕ} (hd : d ≤ n) (f : ℕ → K) : lst n f = (List.range d).map f ++ (f d :: (List.range (n - d)).map fun i => f (d + 1 + i)) := by
  unfold lst
  obtain ⟨e, rfl⟩ : ∃ e, n = d + e := ⟨n - d, by omega⟩
  rw [show d + e + 1 = d + (1 + e) by omega, List.range_add, List.map_append, show d + e - d = e by omega, List.range_add]
  simp [List.map_map, Function.comp_def, add_assoc]

theorem lst_zero {n : ℕ} {f : ℕ → K} (hn : 1 ≤ n) (h : f 0 = 0) : lst n f = 0 :: ((List.range (n - 1)).map (fun i => f (1 + i)) ++ [f n]) := by
  rw [lst_split (Nat.zero_le n), h]
  obtain ⟨m, rfl⟩ : ∃ m, n = m + 1 := ⟨n - 1, by omega⟩
  simp only [List.range_zero, List.map_nil, List.nil_append, Nat.sub_zero, List.range_succ, List.map_append, List.map_cons, Nat.zero_add,
    Nat.add_sub_cancel]
  rw [Nat.add_comm m 1]

/-- degree at most `n`, exactly `d` -/
def Deg (n : ℕ) (f : ℕ → K) (d : ℕ) : Prop := f d ≠ 0 ∧ ∀ k, d < k → k ≤ n → f k = 0

theorem ld_lst_ne {n : ℕ} {f : ℕ → K} : ld (lst n f) ≠ 0 ↔ ∃ k ≤ n, f k ≠ 0 := by
  rw [Ne, ld_eq_zero]
  simp only [lst, List.mem_map, List.mem_range]
  constructor
  · intro h
    by_contra h'
    apply h
    rintro a ⟨k, hk, rfl⟩
    by_contra h0
    exact h' ⟨k, by omega, h0⟩
  · rintro ⟨k, hk, h⟩ h'
    exact h (h' _ ⟨k, by omega, rfl⟩)

theorem exists_deg {n : ℕ} {f : ℕ → K} (h : ld (lst n f) ≠ 0) : ∃ d ≤ n, Deg n f d := by
  obtain ⟨k, hk, hf⟩ := ld_lst_ne.1 h
  classical
  refine ⟨Nat.findGreatest (fun k => f k ≠ 0) n, Nat.findGreatest_le n, Nat.findGreatest_spec (P := fun k => f k ≠ 0) hk hf, fun i h1 h2 => ?_⟩
  have := Nat.findGreatest_is_greatest h1 h2
  simpa using this

theorem Deg.lst_eq {n d : ℕ} {f : ℕ → K} (h : Deg n f d) (hd : d ≤ n) : lst n f = lst d f ++ List.replicate (n - d) 0 := by
  rw [lst_split hd, show lst d f = (List.range d).map f ++ [f d] by simp [lst, List.range_succ], List.append_assoc]
  congr 1
  rw [List.singleton_append]
  congr 1
  apply List.ext_getElem (by simp)
  intro i h1 h2
  simp only [List.length_map, List.length_range] at h1
  simp only [List.getElem_map, List.getElem_range, List.getElem_replicate]
  exact h.2 _ (by omega) (by omega)

theorem Deg.vp_eq {n d : ℕ} {f : ℕ → K} (h : Deg n f d) (hd : d ≤ n) : vp (lst n f) = vp (lst d f) := by
  rw [h.lst_eq hd]
  exact (vp_append_zeros _ (ld_eq_zero.2 (by simp))).1

theorem Deg.ld_ne {n d : ℕ} {f : ℕ → K} (h : Deg n f d) (hd : d ≤ n) : ld (lst n f) ≠ 0 := ld_lst_ne.2 ⟨d, hd, h.1⟩

theorem Deg.shift {n d : ℕ} {f : ℕ → K} (h : Deg n f d) (hd : d ≤ n) : Deg n (fun k => ∑ q ∈ range (n + 1), (q.choose k : K) * f q) d := by
  constructor
  · have : ∑ q ∈ range (n + 1), (q.choose d : K) * f q = f d := by
      rw [sum_eq_single d]
      · simp
      · intro q hq hne
        rcases Nat.lt_or_ge q d with h1 | h1
        · rw [Nat.choose_eq_zero_of_lt h1]; simp
        · rw [h.2 q (by omega) (by have := mem_range.1 hq; omega), mul_zero]
      · intro h'; simp at h'; omega
    simp only [this]; exact h.1
  · intro k h1 h2
    apply sum_eq_zero
    intro q hq
    rcases Nat.lt_or_ge q k with h3 | h3
    · rw [Nat.choose_eq_zero_of_lt h3]; simp
    · rw [h.2 q (by omega) (by have := mem_range.1 hq; omega), mul_zero]

/-! ### counting -/

theorem count_const {p : ℕ → Prop} [DecidablePred p] {d n : ℕ} (hd : d ≤ n) (h : ∀ k, d ≤ k → k < n → ¬ p k) : Nat.count p n = Nat.count p d := by
  induction n with
  | zero => obtain rfl : d = 0 := by omega
            rfl
  | succ n ih =>
    rcases Nat.lt_or_ge n d with h1 | h1
    · obtain rfl : d = n + 1 := by omega
      rfl
    · rw [Nat.count_succ, ih h1 fun k a b => h k a (by omega), if_neg (h n h1 (by omega)), Nat.add_zero]

theorem count_disj {p q : ℕ → Prop} [DecidablePred p] [DecidablePred q] {d : ℕ} (h : ∀ k < d, ¬ (p k ∧ q k)) : Nat.count p d + Nat.count q d ≤ d := by
  induction d with
  | zero => simp
  | succ d ih =>
    have := ih fun k hk => h k (by omega)
    have hd := h d (by omega)
    rw [Nat.count_succ, Nat.count_succ]
    by_cases hp : p d
    · rw [if_pos hp, if_neg fun hq => hd ⟨hp, hq⟩]; omega
    · rw [if_neg hp]; split <;> omega

theorem count_diff {p : ℕ → Prop} [DecidablePred p] {d n : ℕ} (hd : d ≤ n) : Nat.count p n ≤ Nat.count p d + (n - d) := by
  induction n with
  | zero => obtain rfl : d = 0 := by omega
            simp
  | succ n ih =>
    rcases Nat.lt_or_ge n d with h1 | h1
    · obtain rfl : d = n + 1 := by omega
      simp
    · have := ih h1
      rw [Nat.count_succ]; split <;> omega

theorem count_mono' {p q : ℕ → Prop} [DecidablePred p] [DecidablePred q] {d : ℕ} (h : ∀ k < d, p k → q k) : Nat.count p d ≤ Nat.count q d := by
  induction d with
  | zero => simp
  | succ d ih =>
    have := ih fun k hk => h k (by omega)
    have hd := h d (by omega)
    rw [Nat.count_succ, Nat.count_succ]
    by_cases hp : p d
    · rw [if_pos hp, if_pos (hd hp)]; omega
    · rw [if_neg hp]; split <;> omega

/-- Few sign changes after the first knot. -/
theorem vm_bound {n d : ℕ} {f : ℕ → K} {L : ℕ → Prop} [DecidablePred L] (h0 : f 0 = 0) (hD : Deg n f d) (hd : d ≤ n)
    (hL : ∀ q, q < d → L q → f (q + 1) = 0) : vm (lst n f) + 1 + Nat.count L d ≤ d := by
  have h1 := vm_lt_nnz (hD.ld_ne hd)
  have h2 : nnz (lst n f) = Nat.count (fun k => f k ≠ 0) (n + 1) := by
    unfold nnz lst Nat.count
    rw [List.countP_map]
    congr 1
  have h3 : Nat.count (fun k => f k ≠ 0) (n + 1) = Nat.count (fun k => f k ≠ 0) (d + 1) :=
    count_const (by omega) fun k a b => by simpa using hD.2 k (by omega) (by omega)
  have h4 : Nat.count (fun k => f k ≠ 0) (d + 1) = Nat.count (fun q => f (q + 1) ≠ 0) d := by
    rw [Nat.count_succ']; simp [h0]
  have h5 : Nat.count (fun q => f (q + 1) ≠ 0) d + Nat.count L d ≤ d := count_disj fun k hk ⟨a, b⟩ => a (hL k hk b)
  omega

/-- Many sign changes before the last knot. -/
theorem vp_bound {n d : ℕ} {f : ℕ → K} {H : ℕ → Prop} [DecidablePred H] (h0 : f 0 = 0) (hD : Deg n f d) (hd : d ≤ n)
    (hH : ∀ q, q < d → H q → f (q + 1) = 0) : 1 + Nat.count H d ≤ vp (lst n f) := by
  have hd0 : d ≠ 0 := fun h => hD.1 (by rw [h]; exact h0)
  obtain ⟨e, rfl⟩ : ∃ e, d = e + 1 := ⟨d - 1, by omega⟩
  rw [hD.vp_eq hd]
  have hs : lst (e + 1) f = (List.range (e + 1)).map f ++ [f (e + 1)] := by simp [lst, List.range_succ]
  rw [hs]
  refine le_trans ?_ (zeros_le_vp hD.1 _)
  have h2 : ((List.range (e + 1)).map f).countP (· = 0) = Nat.count (fun k => f k = 0) (e + 1) := by
    unfold Nat.count
    rw [List.countP_map]; rfl
  rw [h2, Nat.count_succ' (fun k => f k = 0), if_pos h0, Nat.count_succ, if_neg fun h => hD.1 (hH e (by omega) h), Nat.add_zero, Nat.add_comm]
  exact Nat.add_le_add_right (count_mono' fun k hk h => hH k (by omega) h) 1

/-! ### the pieces -/

variable {n : ℕ} {x : List K} {z : ℕ → K}

/-- Taylor coefficients of piece `j` at its left end, in units of its width -/
def aC (n : ℕ) (z : ℕ → K) (j k : ℕ) : K := if k = 0 then 0 else z (j * n + (k - 1))

/-- and at its right end -/
def bC (n : ℕ) (z : ℕ → K) (j k : ℕ) : K := ∑ q ∈ range (n + 1), (q.choose k : K) * aC n z j q

theorem aC_zero (j : ℕ) : aC n z j 0 = 0 := if_pos rfl

theorem bC_eq (j k : ℕ) : bC n z j k = ∑ q ∈ range n, ((q + 1).choose k : K) • z (j * n + q) := by
  unfold bC
  rw [sum_range_succ', aC_zero, mul_zero, add_zero]
  rfl

theorem bC_top (hn : 1 ≤ n) (j : ℕ) : bC n z j n = aC n z j n := by
  unfold bC
  rw [sum_eq_single n]
  · simp
  · intro q hq hne
    rw [Nat.choose_eq_zero_of_lt (by have := mem_range.1 hq; omega)]; simp
  · intro h; simp at h

theorem bC_zero (h : Sys n x ([] : List K) z) {j : ℕ} (hj : j < x.length - 1) : bC n z j 0 = 0 := by
  rw [bC_eq]
  simpa using h.val0 hj

theorem bC_next (h : Sys n x ([] : List K) z) {j : ℕ} (hj : j + 1 < x.length - 1) {k : ℕ} (hk : 1 ≤ k) (hkn : k < n) :
    bC n z j k = (width x j / width x (j + 1)) ^ k * aC n z (j + 1) k := by
  rw [bC_eq, h.cont j hj k hk hkn]
  unfold aC
  rw [if_neg (by omega)]; rfl

theorem sign_next (hs : x.Pairwise (· < ·)) (h : Sys n x ([] : List K) z) {j : ℕ} (hj : j + 1 < x.length - 1) {k : ℕ} (hk : 1 ≤ k) (hkn : k < n) :
    sign (bC n z j k) = sign (aC n z (j + 1) k) := by
  rw [bC_next h hj hk hkn, sign_mul, sign_pos, one_mul]
  exact pow_pos (div_pos (width_pos hs (by omega)) (width_pos hs (by omega))) k

theorem sign_zero_iff' {a b : K} (h : sign a = sign b) : a = 0 ↔ b = 0 := by rw [← sign_eq_zero_iff (a := a), h, sign_eq_zero_iff]

/-- Once a piece vanishes, everything does. -/
theorem pieces_ne (hn : 1 ≤ n) (hs : x.Pairwise (· < ·)) (h : Sys n x ([] : List K) z) (hne : ∃ i < (x.length - 1) * n, z i ≠ 0) :
    ∀ j < x.length - 1, ld (lst n (aC n z j)) ≠ 0 := by
  intro j0 hj0
  rw [ld_lst_ne]
  by_contra hc
  have hz0 : ∀ q < n, z (j0 * n + q) = 0 := by
    intro q hq
    by_contra h0
    exact hc ⟨q + 1, by omega, by unfold aC; rw [if_neg (by omega)]; exact h0⟩
  have hfwd : ∀ d, j0 + d < x.length - 1 → ∀ q < n, z ((j0 + d) * n + q) = 0 := by
    intro d
    induction d with
    | zero => intro _; exact hz0
    | succ d ih =>
      intro hd
      refine left_trivial (w := fun q => z ((j0 + (d + 1)) * n + q)) (h.val0 hd) (fun q hq => ?_)
      have := h.cont (j0 + d) (by omega) (q + 1) (by omega) hq
      rw [sum_eq_zero (fun q' hq' => by rw [ih (by omega) q' (mem_range.mp hq'), smul_zero])] at this
      have hne : (width x (j0 + d) / width x (j0 + d + 1)) ^ (q + 1) ≠ 0 :=
        pow_ne_zero _ (div_ne_zero (width_ne hs (by omega)) (width_ne hs (by omega)))
      have h2 := this.symm
      rw [smul_eq_mul, mul_eq_zero] at h2
      have h3 := h2.resolve_left hne
      rw [Nat.add_sub_cancel] at h3
      exact h3
  have hbwd : ∀ d j, j + d = j0 → ∀ q < n, z (j * n + q) = 0 := by
    intro d
    induction d with
    | zero => intro j hj; obtain rfl : j = j0 := by omega
              exact hz0
    | succ d ih =>
      intro j hj
      refine right_trivial (w := fun q => z (j * n + q)) hn (h.val0 (by omega)) (fun m hm hmn => ?_)
      rw [h.cont j (by omega) m hm hmn, ih (j + 1) (by omega) (m - 1) (by omega), smul_zero]
  obtain ⟨i, hi, h0⟩ := hne
  obtain ⟨j, q, hj, hq, rfl⟩ := block_cases hi
  apply h0
  rcases Nat.le_total j j0 with h1 | h1
  · exact hbwd (j0 - j) j (by omega) q hq
  · have := hfwd (j - j0) (by omega) q hq
    rwa [show j0 + (j - j0) = j by omega] at this

/-- Along a piece. -/
theorem step_piece (j : ℕ) : vp (lst n (bC n z j)) ≤ vm (lst n (aC n z j)) := by
  have := vp_shift (lst n (aC n z j))
  rw [shift_lst] at this
  exact this

theorem ld_piece (j : ℕ) : ld (lst n (bC n z j)) = ld (lst n (aC n z j)) := by
  have := ld_shift (lst n (aC n z j))
  rw [shift_lst] at this
  exact this

theorem signs_next (hs : x.Pairwise (· < ·)) (h : Sys n x ([] : List K) z) {j : ℕ} (hj : j + 1 < x.length - 1) :
    ((List.range (n - 1)).map fun i => bC n z j (1 + i)).map sign = ((List.range (n - 1)).map fun i => aC n z (j + 1) (1 + i)).map sign := by
  rw [List.map_map, List.map_map]
  apply List.map_congr_left
  intro i hi
  rw [List.mem_range] at hi
  exact sign_next hs h hj (by omega) (by omega)

/-- Across a knot. -/
theorem step_knot (hn : 1 ≤ n) (hs : x.Pairwise (· < ·)) (h : Sys n x ([] : List K) z) (hne : ∃ i < (x.length - 1) * n, z i ≠ 0) {j : ℕ}
    (hj : j + 1 < x.length - 1) : vm (lst n (aC n z (j + 1))) ≤ vp (lst n (bC n z j)) := by
  have hB : ld (lst n (bC n z j)) ≠ 0 := by rw [ld_piece]; exact pieces_ne hn hs h hne j (by omega)
  rw [lst_zero hn (aC_zero _)]
  rw [lst_zero hn (bC_zero h (by omega))] at hB ⊢
  exact (knot (signs_next hs h hj) hB).1

theorem chain (hn : 1 ≤ n) (hs : x.Pairwise (· < ·)) (h : Sys n x ([] : List K) z) (hne : ∃ i < (x.length - 1) * n, z i ≠ 0) (i : ℕ) :
    ∀ e, i + e < x.length - 1 → vp (lst n (bC n z (i + e))) ≤ vm (lst n (aC n z i)) := by
  intro e
  induction e with
  | zero => intro _; exact step_piece i
  | succ e ih =>
    intro he
    exact (step_piece (i + (e + 1))).trans ((step_knot hn hs h hne he).trans (ih (by omega)))

/-- Pieces after one with zero top coefficient: the degree stays. -/
theorem deg_next (hs : x.Pairwise (· < ·)) (h : Sys n x ([] : List K) z) {j d : ℕ} (hj : j + 1 < x.length - 1) (hd : d < n)
    (hD : Deg n (aC n z j) d) (htop : aC n z (j + 1) n = 0) : Deg n (aC n z (j + 1)) d := by
  have hd0 : d ≠ 0 := fun h => hD.1 (by rw [h]; exact aC_zero j)
  have hB : Deg n (bC n z j) d := hD.shift (by omega)
  refine ⟨fun h0 => hB.1 ((sign_zero_iff' (sign_next hs h hj (by omega) hd)).2 h0), fun k h1 h2 => ?_⟩
  rcases Nat.lt_or_ge k n with hk | hk
  · exact (sign_zero_iff' (sign_next hs h hj (by omega) hk)).1 (hB.2 k h1 h2)
  · obtain rfl : k = n := by omega
    exact htop

theorem deg_chain (hs : x.Pairwise (· < ·)) (h : Sys n x ([] : List K) z) {i d : ℕ} (hd : d < n) (hD : Deg n (aC n z i) d)
    (htop : ∀ j, i < j → j < x.length - 1 → aC n z j n = 0) : ∀ e, i + e < x.length - 1 → Deg n (aC n z (i + e)) d := by
  intro e
  induction e with
  | zero => intro _; exact hD
  | succ e ih =>
    intro he
    exact deg_next hs h he hd (ih (by omega)) (htop (i + (e + 1)) (by omega) he)

/-- **The homogeneous problem has only the trivial solution** if there are at least `n-1` conditions at the two ends and, for every `d < n`, more
than `d` conditions involve only the first `d` derivatives. -/
theorem hom_polya (hn : 1 ≤ n) (hx : 2 ≤ x.length) (hs : x.Pairwise (· < ·)) (h : Sys n x ([] : List K) z) {L H : ℕ → Prop} [DecidablePred L] [DecidablePred H]
    (hL : ∀ q < n, L q → aC n z 0 (q + 1) = 0) (hH : ∀ q < n, H q → bC n z (x.length - 2) (q + 1) = 0)
    (htot : n - 1 ≤ Nat.count L (n - 1) + Nat.count H (n - 1))
    (hP : ∀ d < n, d < x.length + Nat.count L d + Nat.count H d) : ∀ i < (x.length - 1) * n, z i = 0 := by
  by_contra hc
  have hne : ∃ i < (x.length - 1) * n, z i ≠ 0 := by
    by_contra h'
    exact hc fun i hi => by
      by_contra h0
      exact h' ⟨i, hi, h0⟩
  have hA := pieces_ne hn hs h hne
  have hA0 := hA 0 (by omega)
  -- few changes at the beginning
  have hfew : vm (lst n (aC n z 0)) + 1 + Nat.count L (n - 1) ≤ n := by
    obtain ⟨d, hd, hD⟩ := exists_deg hA0
    have h1 := vm_bound (L := L) (aC_zero 0) hD hd fun q hq => hL q (by omega)
    have h2 := count_diff (p := L) (d := min d (n - 1)) (n := n - 1) (by omega)
    rcases Nat.lt_or_ge d n with h3 | h3
    · rw [show min d (n - 1) = d by omega] at h2; omega
    · have h4 := Nat.count_monotone L (show n - 1 ≤ d by omega)
      omega
  have hlast : x.length - 2 = x.length - 1 - 1 := by omega
  have hlastlt : x.length - 2 < x.length - 1 := by omega
  obtain ⟨d, hd, hD⟩ := exists_deg (hA (x.length - 2) hlastlt)
  have hDB : Deg n (bC n z (x.length - 2)) d := hD.shift hd
  have hmany := vp_bound (H := H) (bC_zero h hlastlt) hDB hd fun q hq => hH q (by omega)
  by_cases htop : ∃ j < x.length - 1, aC n z j n ≠ 0
  · -- the last piece of full degree
    classical
    set j := Nat.findGreatest (fun j => aC n z j n ≠ 0) (x.length - 2) with hjdef
    have hj : aC n z j n ≠ 0 := by
      obtain ⟨j', h1, h2⟩ := htop
      exact Nat.findGreatest_spec (P := fun j => aC n z j n ≠ 0) (show j' ≤ x.length - 2 by omega) h2
    have hjle : j ≤ x.length - 2 := Nat.findGreatest_le _
    have hafter : ∀ i, j < i → i < x.length - 1 → aC n z i n = 0 := by
      intro i h1 h2
      have := Nat.findGreatest_is_greatest h1 (show i ≤ x.length - 2 by omega)
      simpa using this
    clear_value j
    rcases Nat.eq_or_lt_of_le hjle with hjl | hjl
    · -- it is the last one
      obtain rfl : d = n := by
        rcases Nat.eq_or_lt_of_le hd with h1 | h1
        · exact h1
        · exact absurd (hD.2 n h1 le_rfl) (by rw [← hjl]; exact hj)
      have hch := chain hn hs h hne 0 (x.length - 2) (by omega)
      rw [Nat.zero_add] at hch
      have := Nat.count_monotone H (show d - 1 ≤ d by omega)
      omega
    · have hdn : d < n := by
        rcases Nat.lt_or_ge d n with h1 | h1
        · exact h1
        · obtain rfl : d = n := by omega
          exact absurd (hafter _ hjl hlastlt) hD.1
      -- the degree of the pieces after it
      obtain ⟨d', hd', hD'⟩ := exists_deg (hA (j + 1) (by omega))
      have hd'n : d' < n := by
        rcases Nat.lt_or_ge d' n with h1 | h1
        · exact h1
        · obtain rfl : d' = n := by omega
          exact absurd (hafter _ (by omega) (by omega)) hD'.1
      have hDl := deg_chain hs h hd'n hD' (fun i h1 h2 => hafter i (by omega) h2) (x.length - 2 - (j + 1)) (by omega)
      rw [show j + 1 + (x.length - 2 - (j + 1)) = x.length - 2 by omega] at hDl
      obtain rfl : d' = d := by
        rcases lt_trichotomy d' d with h1 | h1 | h1
        · exact absurd (hDl.2 d h1 hd) hD.1
        · exact h1
        · exact absurd (hD.2 d' h1 hd') hDl.1
      have hd0 : d' ≠ 0 := fun h => hD.1 (by rw [h]; exact aC_zero _)
      -- many changes at the knot before
      have hb1 : bC n z j n ≠ 0 := by rw [bC_top hn]; exact hj
      have hsgn : (lst d' (bC n z j)).map sign = (lst d' (aC n z (j + 1))).map sign := by
        unfold lst
        rw [List.map_map, List.map_map]
        apply List.map_congr_left
        intro k hk
        rw [List.mem_range] at hk
        simp only [Function.comp]
        rcases Nat.eq_zero_or_pos k with h0 | h0
        · subst h0; rw [bC_zero h (by omega), aC_zero]
        · exact sign_next hs h (by omega) h0 (by omega)
      obtain ⟨-, -, c1, -, c2⟩ := signs_congr hsgn
      have hsplit : lst n (bC n z j) = lst d' (bC n z j) ++ (List.replicate (n - d' - 1) 0 ++ [bC n z j n]) := by
        rw [lst_split hd', show lst d' (bC n z j) = (List.range d').map (bC n z j) ++ [bC n z j d'] by simp [lst, List.range_succ],
          List.append_assoc, List.singleton_append]
        congr 2
        obtain ⟨e, he⟩ : ∃ e, n - d' = e + 1 := ⟨n - d' - 1, by omega⟩
        rw [he, List.range_succ, List.map_append, List.map_singleton, show d' + 1 + e = n by omega, Nat.add_sub_cancel]
        congr 1
        apply List.ext_getElem (by simp)
        intro i h1 h2
        simp only [List.length_map, List.length_range] at h1
        simp only [List.getElem_map, List.getElem_range, List.getElem_replicate]
        exact (sign_zero_iff' (sign_next hs h (by omega) (by omega) (by omega))).2 (hD'.2 _ (by omega) (by omega))
      have hl1 : ld (lst d' (bC n z j)) ≠ 0 := by
        rw [c1]; exact ld_lst_ne.2 ⟨d', le_rfl, hD'.1⟩
      have hl2 : ld (List.replicate (n - d' - 1) 0 ++ [bC n z j n]) ≠ 0 := by
        rw [ld_append, if_neg] <;> simp [ld, hb1]
      have hv := vp_append hl1 hl2
      rw [← hsplit, vp_zeros _ hb1, c2, ← hD'.vp_eq hd'] at hv
      have h1 := chain hn hs h hne 0 j (by omega)
      rw [Nat.zero_add] at h1
      have h2 := vm_le_vp (lst n (aC n z (j + 1)))
      have h3 := chain hn hs h hne (j + 1) (x.length - 2 - (j + 1)) (by omega)
      rw [show j + 1 + (x.length - 2 - (j + 1)) = x.length - 2 by omega] at h3
      have h4 := count_diff (p := H) (d := d') (n := n - 1) (by omega)
      omega
  · -- one polynomial
    have hall : ∀ j < x.length - 1, aC n z j n = 0 := by
      intro j hj
      by_contra h0
      exact htop ⟨j, hj, h0⟩
    obtain ⟨d', hd', hD'⟩ := exists_deg hA0
    have hd'n : d' < n := by
      rcases Nat.lt_or_ge d' n with h1 | h1
      · exact h1
      · obtain rfl : d' = n := by omega
        exact absurd (hall 0 (by omega)) hD'.1
    have hdeg := deg_chain hs h hd'n hD' (fun j _ hj => hall j hj)
    simp only [Nat.zero_add] at hdeg
    obtain rfl : d' = d := by
      have hDl := hdeg (x.length - 2) hlastlt
      rcases lt_trichotomy d' d with h1 | h1 | h1
      · exact absurd (hDl.2 d h1 hd) hD.1
      · exact h1
      · exact absurd (hD.2 d' h1 hd') hDl.1
    have h1 := vm_bound (L := L) (aC_zero 0) hD' hd' fun q hq => hL q (by omega)
    have hslack : ∀ j, j < x.length - 1 → vp (lst n (bC n z j)) + j ≤ vm (lst n (aC n z 0)) := by
      intro j
      induction j with
      | zero => intro _; exact step_piece 0
      | succ j ih =>
        intro hj
        have ih := ih (by omega)
        have e1 := step_piece (n := n) (z := z) (j + 1)
        have hBj : Deg n (bC n z j) d' := (hdeg j (by omega)).shift hd'
        have hd0 : d' ≠ 0 := fun h => hD.1 (by rw [h]; exact aC_zero _)
        have e2 : vm (lst n (aC n z (j + 1))) + 1 ≤ vp (lst n (bC n z j)) := by
          rw [lst_zero hn (aC_zero _), lst_zero hn (bC_zero h (by omega))]
          refine knot_smooth ?_ ?_
          · rw [List.map_append, List.map_append, signs_next hs h hj]
            congr 1
            rw [bC_top hn, hall j (by omega), hall (j + 1) hj]
          · have := hBj.ld_ne hd'
            rw [lst_zero hn (bC_zero h (by omega))] at this
            rw [Ne, ld_eq_zero] at this ⊢
            intro h'
            apply this
            intro a ha
            rcases List.mem_cons.1 ha with h0 | h0
            · exact h0
            · exact h' a h0
        omega
    have h2 := hslack (x.length - 2) hlastlt
    have h3 := hP d' hd'n
    omega

end Npplus.Spl
