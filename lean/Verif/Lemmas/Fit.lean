import Verif.Model.Fit
import Verif.Spec.Fit
import Verif.Props.Pline
import Mathlib.Algebra.Order.BigOperators.Group.Finset
import Mathlib.Algebra.Order.BigOperators.Ring.Finset

/-! # Lemmas for the fits: set-up, least squares -/

set_option linter.unusedSectionVars false

namespace Npplus
open Spec Finset

/-! ### the component loop -/

theorem seqFin_ok {α : Type} : ∀ {m : ℕ} {f : Fin m → Except PyErr α} {r : Fin m → α},
    seqFin m f = .ok r ↔ ∀ i, f i = .ok (r i)
  | 0, f, r => by
    simp only [seqFin, IsEmpty.forall_iff, iff_true]
    congr 1; funext i; exact i.elim0
  | m + 1, f, r => by
    simp only [seqFin, bind, Except.bind]
    constructor
    · intro h
      cases h0 : f 0 with
      | error e => rw [h0] at h; cases h
      | ok a =>
        rw [h0] at h
        simp only at h
        cases h1 : seqFin m (fun i => f i.succ) with
        | error e => rw [h1] at h; cases h
        | ok r' =>
          rw [h1] at h
          cases h
          have := seqFin_ok.mp h1
          intro i
          refine Fin.cases ?_ (fun i => ?_) i
          · simpa using h0
          · simpa using this i
    · intro h
      have h1 : seqFin m (fun i => f i.succ) = .ok (fun i => r i.succ) := seqFin_ok.mpr fun i => h i.succ
      rw [h 0, h1]
      simp only
      congr 1
      exact Fin.cons_self_tail r

variable {K : Type} [Field K] [LinearOrder K] [IsStrictOrderedRing K] {m : ℕ}

namespace Fit

/-! ### minimum, maximum -/

theorem foldl_min (x : List K) (a : K) :
    (∀ s ∈ x, x.foldl min a ≤ s) ∧ x.foldl min a ≤ a ∧ (x.foldl min a = a ∨ x.foldl min a ∈ x) := by
  induction x generalizing a with
  | nil => simp
  | cons b l ih =>
    obtain ⟨h1, h2, h3⟩ := ih (min a b)
    simp only [List.foldl_cons]
    refine ⟨?_, h2.trans (min_le_left _ _), ?_⟩
    · intro s hs
      rcases List.mem_cons.mp hs with rfl | hs
      · exact h2.trans (min_le_right _ _)
      · exact h1 s hs
    · rcases h3 with h3 | h3
      · rw [h3]
        rcases min_choice a b with h | h
        · left; exact h
        · right; rw [h]; simp
      · right; exact List.mem_cons_of_mem _ h3

theorem foldl_max (x : List K) (a : K) :
    (∀ s ∈ x, s ≤ x.foldl max a) ∧ a ≤ x.foldl max a ∧ (x.foldl max a = a ∨ x.foldl max a ∈ x) := by
  induction x generalizing a with
  | nil => simp
  | cons b l ih =>
    obtain ⟨h1, h2, h3⟩ := ih (max a b)
    simp only [List.foldl_cons]
    refine ⟨?_, (le_max_left _ _).trans h2, ?_⟩
    · intro s hs
      rcases List.mem_cons.mp hs with rfl | hs
      · exact (le_max_right _ _).trans h2
      · exact h1 s hs
    · rcases h3 with h3 | h3
      · rw [h3]
        rcases max_choice a b with h | h
        · left; exact h
        · right; rw [h]; simp
      · right; exact List.mem_cons_of_mem _ h3

theorem getD_zero_mem {x : List K} (hx : x ≠ []) : x.getD 0 0 ∈ x := by
  cases x with
  | nil => exact absurd rfl hx
  | cons a l => simp

theorem amin_spec {x : List K} (hx : x ≠ []) : amin x ∈ x ∧ ∀ s ∈ x, amin x ≤ s := by
  obtain ⟨h1, h2, h3⟩ := foldl_min x (x.getD 0 0)
  refine ⟨?_, h1⟩
  unfold amin
  rcases h3 with h | h
  · rw [h]; exact getD_zero_mem hx
  · exact h

theorem amax_spec {x : List K} (hx : x ≠ []) : amax x ∈ x ∧ ∀ s ∈ x, s ≤ amax x := by
  obtain ⟨h1, h2, h3⟩ := foldl_max x (x.getD 0 0)
  refine ⟨?_, h1⟩
  unfold amax
  rcases h3 with h | h
  · rw [h]; exact getD_zero_mem hx
  · exact h

/-! ### the set-up -/

theorem first_le {xk : List K} (hs : xk.Pairwise (· < ·)) {k : K} (hk : k ∈ xk) : xk.getD 0 0 ≤ k := by
  obtain ⟨i, hi, rfl⟩ := List.getElem_of_mem hk
  rw [List.getD_eq_getElem _ _ (by omega)]
  rcases Nat.eq_zero_or_pos i with h | h
  · subst h; exact le_rfl
  · exact (List.pairwise_iff_getElem.mp hs 0 i _ hi h).le

theorem le_last {xk : List K} (hs : xk.Pairwise (· < ·)) {k : K} (hk : k ∈ xk) : k ≤ xk.getD (xk.length - 1) 0 := by
  obtain ⟨i, hi, rfl⟩ := List.getElem_of_mem hk
  rw [List.getD_eq_getElem _ _ (by omega)]
  rcases Nat.lt_or_ge i (xk.length - 1) with h | h
  · exact (List.pairwise_iff_getElem.mp hs i (xk.length - 1) _ (by omega) h).le
  · have : i = xk.length - 1 := by omega
    subst this; exact le_rfl

theorem last_mem {xk : List K} (h : 2 ≤ xk.length) : xk.getD (xk.length - 1) 0 ∈ xk := by
  rw [List.getD_eq_getElem _ _ (by omega)]; exact List.getElem_mem _

/-- The extended knots are what the specification says. -/
theorem fitKnots_extend {xk x : List K} (hs : xk.Pairwise (· < ·)) (h2 : 2 ≤ xk.length) (hx : x ≠ []) :
    FitKnots xk x ((if amin x < xk.getD 0 0 then [amin x] else []) ++ xk ++
      (if xk.getD (xk.length - 1) 0 < amax x then [amax x] else [])) := by
  obtain ⟨m1, m2⟩ := amin_spec hx
  obtain ⟨M1, M2⟩ := amax_spec hx
  have hne : xk ≠ [] := by intro h; rw [h] at h2; simp at h2
  have h0 := getD_zero_mem hne
  have hl := last_mem h2
  constructor
  · refine List.pairwise_append.mpr ⟨List.pairwise_append.mpr ⟨by split <;> simp, hs, ?_⟩, by split <;> simp, ?_⟩
    · intro a ha b hb
      split at ha
      · next h =>
        rw [List.mem_singleton.mp ha]
        exact h.trans_le (first_le hs hb)
      · simp at ha
    · intro a ha b hb
      split at hb
      · next h =>
        rw [List.mem_singleton.mp hb]
        rcases List.mem_append.mp ha with ha | ha
        · split at ha
          · next h' =>
            rw [List.mem_singleton.mp ha]
            exact (h'.trans_le (first_le hs hl)).trans h
          · simp at ha
        · exact (le_last hs ha).trans_lt h
      · simp at hb
  · intro t
    simp only [List.mem_append]
    constructor
    · rintro ((h | h) | h)
      · right; left
        split at h
        · next h' =>
          rw [List.mem_singleton.mp h]
          exact ⟨m1, m2, fun k hk => h'.trans_le (first_le hs hk)⟩
        · simp at h
      · left; exact h
      · right; right
        split at h
        · next h' =>
          rw [List.mem_singleton.mp h]
          exact ⟨M1, M2, fun k hk => (le_last hs hk).trans_lt h'⟩
        · simp at h
    · rintro (h | ⟨h1, h2', h3⟩ | ⟨h1, h2', h3⟩)
      · left; right; exact h
      · left; left
        have : t = amin x := le_antisymm (h2' _ m1) (m2 _ h1)
        rw [if_pos (by rw [← this]; exact h3 _ h0), this]; simp
      · right
        have : t = amax x := le_antisymm (M2 _ h1) (h2' _ M1)
        rw [if_pos (by rw [← this]; exact h3 _ hl), this]; simp

/-- Data lie between the end knots. -/
theorem fitKnots_range {xk x xk' : List K} (h : FitKnots xk x xk') (hne : xk ≠ []) (hx : x ≠ []) {t : K}
    (ht : t ∈ x) : xk'.getD 0 0 ≤ t ∧ t ≤ xk'.getD (xk'.length - 1) 0 := by
  obtain ⟨m1, m2⟩ := amin_spec hx
  obtain ⟨M1, M2⟩ := amax_spec hx
  constructor
  · by_cases hc : ∃ k ∈ xk, k ≤ amin x
    · obtain ⟨k, hk, hle⟩ := hc
      exact (first_le h.inc ((h.mem k).mpr (.inl hk))).trans (hle.trans (m2 t ht))
    · push Not at hc
      exact (first_le h.inc ((h.mem _).mpr (.inr (.inl ⟨m1, m2, hc⟩)))).trans (m2 t ht)
  · by_cases hc : ∃ k ∈ xk, amax x ≤ k
    · obtain ⟨k, hk, hle⟩ := hc
      exact (M2 t ht).trans (hle.trans (le_last h.inc ((h.mem k).mpr (.inl hk))))
    · push Not at hc
      exact (M2 t ht).trans (le_last h.inc ((h.mem _).mpr (.inr (.inr ⟨M1, M2, hc⟩))))

/-- The interval index: the data point is in its interval; not at the left end, except in the first interval. -/
theorem index_spec {xk : List K} (hs : xk.Pairwise (· < ·)) (h2 : 2 ≤ xk.length) {t : K} (h0 : xk.getD 0 0 ≤ t)
    (h1 : t ≤ xk.getD (xk.length - 1) 0) :
    index xk t + 1 < xk.length ∧ xk.getD (index xk t) 0 ≤ t ∧ t ≤ xk.getD (index xk t + 1) 0 ∧
      (xk.getD (index xk t) 0 = t → index xk t = 0) := by
  obtain ⟨i, hi⟩ : ∃ i, searchsorted xk t = i := ⟨_, rfl⟩
  have hp := inPiece_searchsorted hs t
  rw [hi] at hp
  obtain ⟨p1, p2, p3⟩ := hp
  have hil : i ≤ xk.length - 1 := by
    by_contra hc
    have := p2 (xk.length - 1) (by omega) (by omega)
    rw [List.getD_eq_getElem _ _ (by omega)] at h1
    exact absurd h1 (not_le.mpr this)
  have e : index xk t = i - 1 := by unfold index; rw [hi]; omega
  rw [e]
  rcases Nat.eq_zero_or_pos i with h | h
  · subst h
    refine ⟨by omega, h0, ?_, fun _ => rfl⟩
    rw [List.getD_eq_getElem _ _ (by omega)]
    exact p3 _ (by omega) (by omega)
  · refine ⟨by omega, ?_, ?_, ?_⟩
    · rw [List.getD_eq_getElem _ _ (by omega)]
      exact (p2 _ (by omega) (by omega)).le
    · rw [List.getD_eq_getElem _ _ (by omega)]
      exact p3 _ (by omega) (by omega)
    · intro he
      rw [List.getD_eq_getElem _ _ (by omega)] at he
      exact absurd he (p2 _ (by omega) (by omega)).ne

/-- What the set-up does. -/
theorem setup_ok [FloorRing K] {xk x : List K} {lo hi : List (Fin m → K)} {per : Bool} {extrap : Option (ℕ × ℕ)}
    {s : Setup K m} (h : setup xk x lo hi per extrap = .ok s) (hs : xk.Pairwise (· < ·)) :
    2 ≤ xk.length ∧ s.lo = lo ∧ s.hi = hi ∧ s.extrap = extrap ∧
    (per = true → lo = [] ∧ hi = [] ∧ extrap = none ∧ s.xk = xk ∧ s.x = x.map fun t =>
      pmod (t - xk.getD 0 0) (xk.getD (xk.length - 1) 0 - xk.getD 0 0) + xk.getD 0 0) ∧
    (per = false → x ≠ [] ∧ s.x = x ∧ FitKnots xk x s.xk ∧ 2 ≤ s.xk.length ∧
      (lo ≠ [] → s.xk.getD 0 0 = xk.getD 0 0) ∧
      (hi ≠ [] → s.xk.getD (s.xk.length - 1) 0 = xk.getD (xk.length - 1) 0)) := by
  unfold setup at h
  simp only [bind, Except.bind, pure, Except.pure, throw, throwThe, MonadExceptOf.throw] at h
  by_cases hc : per = true ∧ (lo ≠ [] ∨ hi ≠ [] ∨ extrap ≠ none)
  · rw [if_pos hc] at h; cases h
  rw [if_neg hc] at h
  try simp only at h
  by_cases h2 : xk.length < 2
  · rw [if_pos h2] at h; cases h
  rw [if_neg h2] at h
  try simp only at h
  have hdec : ¬ xk.getD (xk.length - 1) 0 < xk.getD 0 0 :=
    not_lt.mpr (first_le hs (last_mem (by omega)))
  rw [if_neg hdec] at h
  try simp only at h
  refine ⟨by omega, ?_⟩
  cases per with
  | true =>
    rw [if_pos rfl] at h
    cases h
    simp only [true_and, not_or, not_not] at hc
    exact ⟨rfl, rfl, rfl, fun _ => ⟨hc.1, hc.2.1, hc.2.2, rfl, rfl⟩, by simp⟩
  | false =>
    rw [if_neg (by simp)] at h
    by_cases hx : x = []
    · rw [if_pos hx] at h; cases h
    rw [if_neg hx] at h
    try simp only at h
    by_cases hlo : amin x < xk.getD 0 0 ∧ lo ≠ []
    · rw [if_pos hlo] at h; cases h
    rw [if_neg hlo] at h
    try simp only at h
    by_cases hhi : xk.getD (xk.length - 1) 0 < amax x ∧ hi ≠ []
    · rw [if_pos hhi] at h; cases h
    rw [if_neg hhi] at h
    cases h
    refine ⟨rfl, rfl, rfl, by simp, fun _ => ⟨hx, rfl, fitKnots_extend hs (by omega) hx, ?_, ?_, ?_⟩⟩
    · simp only [List.length_append]; omega
    · intro hl
      have : ¬ amin x < xk.getD 0 0 := fun hh => hlo ⟨hh, hl⟩
      simp only [if_neg this, List.nil_append]
      rw [List.getD_append _ _ _ _ (by omega)]
    · intro hh
      have : ¬ xk.getD (xk.length - 1) 0 < amax x := fun hh' => hhi ⟨hh', hh⟩
      simp only [if_neg this, List.append_nil, List.length_append]
      rw [List.getD_append_right _ _ _ _ (by omega)]
      congr 1; omega

/-! ### least squares -/

/-- `chi2` of a linear model is a quadratic function of the unknowns. -/
theorem lsq_expand (N n : ℕ) (φ : ℕ → ℕ → K) (w y v d : ℕ → K) :
    ∑ t ∈ range N, w t * (∑ k ∈ range n, φ t k * (v k + d k) - y t) ^ 2 =
      ∑ t ∈ range N, w t * (∑ k ∈ range n, φ t k * v k - y t) ^ 2 +
      2 * ∑ k ∈ range n, d k * (∑ t ∈ range N, w t * φ t k * (∑ k' ∈ range n, φ t k' * v k' - y t)) +
      ∑ t ∈ range N, w t * (∑ k ∈ range n, φ t k * d k) ^ 2 := by
  have h1 : ∑ k ∈ range n, d k * (∑ t ∈ range N, w t * φ t k * (∑ k' ∈ range n, φ t k' * v k' - y t)) =
      ∑ t ∈ range N, w t * (∑ k ∈ range n, φ t k * d k) * (∑ k' ∈ range n, φ t k' * v k' - y t) := by
    simp only [Finset.mul_sum, Finset.sum_mul]
    rw [Finset.sum_comm]
    refine Finset.sum_congr rfl fun t _ => Finset.sum_congr rfl fun k _ => ?_
    ring
  rw [h1, Finset.mul_sum, ← Finset.sum_add_distrib, ← Finset.sum_add_distrib]
  refine Finset.sum_congr rfl fun t _ => ?_
  have : ∑ k ∈ range n, φ t k * (v k + d k) = ∑ k ∈ range n, φ t k * v k + ∑ k ∈ range n, φ t k * d k := by
    rw [← Finset.sum_add_distrib]
    exact Finset.sum_congr rfl fun k _ => by ring
  rw [this]
  ring

end Fit
end Npplus

namespace Npplus
open Spec Finset
variable {K : Type} [Field K] [LinearOrder K] [IsStrictOrderedRing K] {m : ℕ}

namespace Fit

/-! ### symmetric matrices given by their lower half, as bilinear forms -/

theorem symBand_split (u : ℕ) (ab : ℕ → ℕ → K) (i j : ℕ) :
    symBand u ab i j = (if i = j then ab 0 j else 0) + ∑ s ∈ range u, ((if i = j + (s + 1) then ab (s + 1) j else 0) +
      if j = i + (s + 1) then ab (s + 1) i else 0) := by
  unfold symBand
  rcases Nat.lt_trichotomy i j with h | h | h
  · rw [if_neg (show ¬ j ≤ i by omega), if_neg (show ¬ i = j by omega), zero_add]
    have e : ∀ s ∈ range u, ((if i = j + (s + 1) then ab (s + 1) j else 0) +
        if j = i + (s + 1) then ab (s + 1) i else 0) = if s = j - i - 1 then ab (j - i) i else 0 := by
      intro s _
      rw [if_neg (by omega), zero_add]
      by_cases hs : s = j - i - 1
      · rw [if_pos hs, if_pos (by omega)]; congr 1; omega
      · rw [if_neg hs, if_neg (by omega)]
    rw [sum_congr rfl e, sum_ite_eq']
    simp only [mem_range]
    refine if_congr (by omega) rfl rfl
  · subst h
    rw [if_pos le_rfl, if_pos (by omega), if_pos rfl, Nat.sub_self, sum_eq_zero, add_zero]
    intro s _
    rw [if_neg (by omega), add_zero]
  · rw [if_pos (show j ≤ i by omega), if_neg (show ¬ i = j by omega), zero_add]
    have e : ∀ s ∈ range u, ((if i = j + (s + 1) then ab (s + 1) j else 0) +
        if j = i + (s + 1) then ab (s + 1) i else 0) = if s = i - j - 1 then ab (i - j) j else 0 := by
      intro s _
      rw [if_neg (show ¬ j = i + (s + 1) by omega), add_zero]
      by_cases hs : s = i - j - 1
      · rw [if_pos hs, if_pos (by omega)]; congr 1; omega
      · rw [if_neg hs, if_neg (by omega)]
    rw [sum_congr rfl e, sum_ite_eq']
    simp only [mem_range]
    refine if_congr (by omega) rfl rfl

/-- `dᵀ A z` for a symmetric band matrix. -/
theorem band_form (N u : ℕ) (ab : ℕ → ℕ → K) (d z : ℕ → K) :
    ∑ i ∈ range N, d i * ∑ j ∈ range N, symBand u ab i j * z j =
      ∑ j ∈ range N, (ab 0 j * d j * z j + ∑ s ∈ range u, if j + (s + 1) < N then
        ab (s + 1) j * (d (j + (s + 1)) * z j + d j * z (j + (s + 1))) else 0) := by
  have e : ∀ i j, symBand u ab i j * z j = (if i = j then ab 0 j * z j else 0) +
      ∑ s ∈ range u, ((if i = j + (s + 1) then ab (s + 1) j * z j else 0) +
        if j = i + (s + 1) then ab (s + 1) i * z j else 0) := by
    intro i j
    rw [symBand_split, add_mul, sum_mul]
    simp only [add_mul, ite_mul, zero_mul]
  simp only [e, sum_add_distrib, mul_add, mul_sum]
  congr 1
  · refine sum_congr rfl fun i hi => ?_
    rw [sum_eq_single i]
    · rw [if_pos rfl]; ring
    · intro j _ hj; rw [if_neg (Ne.symm hj), mul_zero]
    · intro h; exact absurd hi h
  · have s1 : ∑ i ∈ range N, ∑ j ∈ range N, ∑ s ∈ range u, d i * (if i = j + (s + 1) then ab (s + 1) j * z j else 0) =
        ∑ j ∈ range N, ∑ s ∈ range u, if j + (s + 1) < N then ab (s + 1) j * (d (j + (s + 1)) * z j) else 0 := by
      rw [sum_comm]
      refine sum_congr rfl fun j _ => ?_
      rw [sum_comm]
      refine sum_congr rfl fun s _ => ?_
      by_cases h : j + (s + 1) < N
      · rw [if_pos h, sum_eq_single (j + (s + 1))]
        · rw [if_pos rfl]; ring
        · intro i _ hi; rw [if_neg hi, mul_zero]
        · intro h'; exact absurd (mem_range.mpr h) h'
      · rw [if_neg h]
        refine sum_eq_zero fun i hi => ?_
        rw [if_neg (by have := mem_range.mp hi; omega), mul_zero]
    have s2 : ∑ i ∈ range N, ∑ j ∈ range N, ∑ s ∈ range u, d i * (if j = i + (s + 1) then ab (s + 1) i * z j else 0) =
        ∑ j ∈ range N, ∑ s ∈ range u, if j + (s + 1) < N then ab (s + 1) j * (d j * z (j + (s + 1))) else 0 := by
      refine sum_congr rfl fun i _ => ?_
      rw [sum_comm]
      refine sum_congr rfl fun s _ => ?_
      by_cases h : i + (s + 1) < N
      · rw [if_pos h, sum_eq_single (i + (s + 1))]
        · rw [if_pos rfl]; ring
        · intro j _ hj; rw [if_neg hj, mul_zero]
        · intro h'; exact absurd (mem_range.mpr h) h'
      · rw [if_neg h]
        refine sum_eq_zero fun j hj => ?_
        rw [if_neg (by have := mem_range.mp hj; omega), mul_zero]
    rw [s1, s2, ← sum_add_distrib]
    refine sum_congr rfl fun j _ => ?_
    rw [← sum_add_distrib]
    refine sum_congr rfl fun s _ => ?_
    split <;> ring

/-- `dᵀ A z` for a symmetric cyclic matrix. -/
theorem cyclic_form (N u : ℕ) (ab : ℕ → ℕ → K) (d z : ℕ → K) :
    ∑ i ∈ range N, d i * ∑ j ∈ range N, symCyclic N u ab i j * z j =
      ∑ j ∈ range N, (ab 0 j * d j * z j + ∑ s ∈ range u,
        ab (s + 1) j * (d ((j + (s + 1)) % N) * z j + d j * z ((j + (s + 1)) % N))) := by
  have e : ∀ i j, symCyclic N u ab i j * z j = (if i = j then ab 0 j * z j else 0) +
      ∑ s ∈ range u, ((if i % N = (j + (s + 1)) % N then ab (s + 1) j * z j else 0) +
        if j % N = (i + (s + 1)) % N then ab (s + 1) i * z j else 0) := by
    intro i j
    unfold symCyclic
    rw [add_mul, sum_mul]
    simp only [add_mul, ite_mul, zero_mul]
  simp only [e, sum_add_distrib, mul_add, mul_sum]
  congr 1
  · refine sum_congr rfl fun i hi => ?_
    rw [sum_eq_single i]
    · rw [if_pos rfl]; ring
    · intro j _ hj; rw [if_neg (Ne.symm hj), mul_zero]
    · intro h; exact absurd hi h
  · congr 1
    · rw [sum_comm]
      refine sum_congr rfl fun j hj => ?_
      have hN : 0 < N := by have := mem_range.mp hj; omega
      rw [sum_comm]
      refine sum_congr rfl fun s _ => ?_
      rw [sum_eq_single ((j + (s + 1)) % N)]
      · rw [if_pos (Nat.mod_mod _ _)]; ring
      · intro i hi hne; rw [if_neg (by rw [Nat.mod_eq_of_lt (mem_range.mp hi)]; exact hne), mul_zero]
      · intro h'; exact absurd (mem_range.mpr (Nat.mod_lt _ hN)) h'
    · refine sum_congr rfl fun i hi => ?_
      have hN : 0 < N := by have := mem_range.mp hi; omega
      rw [sum_comm]
      refine sum_congr rfl fun s _ => ?_
      rw [sum_eq_single ((i + (s + 1)) % N)]
      · rw [if_pos (Nat.mod_mod _ _)]; ring
      · intro j hj hne; rw [if_neg (by rw [Nat.mod_eq_of_lt (mem_range.mp hj)]; exact hne), mul_zero]
      · intro h'; exact absurd (mem_range.mpr (Nat.mod_lt _ hN)) h'

/-- The sums over the bins, weighted, are sums over the data. -/
theorem sum_bincount {N n : ℕ} {ix : ℕ → ℕ} (hix : ∀ t < N, ix t < n) (w h : ℕ → K) :
    ∑ k ∈ range n, bincount N ix w k * h k = ∑ t ∈ range N, w t * h (ix t) := by
  unfold bincount
  simp only [sum_mul]
  rw [sum_comm]
  refine sum_congr rfl fun t ht => ?_
  rw [sum_eq_single (ix t)]
  · rw [if_pos rfl]
  · intro k _ hk; rw [if_neg (Ne.symm hk), zero_mul]
  · intro h'; exact absurd (mem_range.mpr (hix t (mem_range.mp ht))) h'

theorem bincount_zero {N k : ℕ} {ix : ℕ → ℕ} (h : ∀ t < N, ix t ≠ k) (w : ℕ → K) : bincount N ix w k = 0 :=
  sum_eq_zero fun t ht => if_neg (h t (mem_range.mp ht))

end Fit
end Npplus
