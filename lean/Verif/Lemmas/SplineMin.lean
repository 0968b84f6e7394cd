import Verif.Lemmas.Holladay
import Verif.Lemmas.HermiteError
import Verif.Lemmas.Calculus
import Verif.Props.Approx

/-!
# Minimum properties of piecewise polynomials of odd degree
-/

set_option linter.unusedSectionVars false
namespace Npplus
open Spec Set MeasureTheory

variable {p : PwPoly ℝ ℝ} {m : ℕ}

/-- `p` on the interval from its first to its last knot, with its derivatives from the inside -/
noncomputable def inside (p : PwPoly ℝ ℝ) (k : ℕ) (t : ℝ) : ℝ := if t ≤ p.xk.getD 0 0 then pieceDeriv p 1 t k else (p.deriv k).call t

theorem inside_Ioc (hp : WF p) {i : ℕ} (hi : i + 1 < p.xk.length) {k : ℕ} {t : ℝ} (ht : t ∈ Ioc (p.xk.getD i 0) (p.xk.getD (i + 1) 0)) :
    inside p k t = pieceDeriv p (i + 1) t k := by
  unfold inside
  have h0 := sorted_le hp.inc (Nat.zero_le i) (by omega)
  rw [if_neg (not_le.2 (lt_of_le_of_lt h0 ht.1)), ((C09_deriv hp k).2.2.2 (i + 1) t (inPiece_between hp.inc hi ht.1 ht.2)).1]

theorem inside_of_lt (hp : WF p) {k : ℕ} {t : ℝ} (ht : p.xk.getD 0 0 < t) : inside p k t = (p.deriv k).call t := by
  unfold inside
  rw [if_neg (not_le.2 ht)]

theorem inside_zero (hp : WF p) (h0 : MatchAt p 0 0) {t : ℝ} (ht : p.xk.getD 0 0 ≤ t) : inside p 0 t = p.call t := by
  have hl : 0 < p.xk.length := List.length_pos_of_ne_nil hp.ne
  rcases eq_or_lt_of_le ht with rfl | h
  · unfold inside
    rw [if_pos le_rfl]
    have hi := inPiece_knot hp.inc hl
    rw [← List.getD_eq_getElem _ 0 hl] at hi
    rw [call_eq_piece hp hi]
    exact h0.symm
  · rw [inside_of_lt hp h]
    rfl

theorem exists_Ioc {xk : List ℝ} (hs : xk.Pairwise (· < ·)) {t : ℝ} (ht : t ∈ Ioc (xk.getD 0 0) (xk.getD (xk.length - 1) 0)) :
    ∃ i, i + 1 < xk.length ∧ t ∈ Ioc (xk.getD i 0) (xk.getD (i + 1) 0) := by
  obtain ⟨i, hin, _⟩ := existsUnique_inPiece hs t
  have hl : 0 < xk.length := by
    by_contra h
    have : xk = [] := List.length_eq_zero_iff.1 (by omega)
    subst this
    exact absurd ht.1 (not_lt.2 (by simpa using ht.2))
  have h0 : 0 < i := by
    by_contra h
    have := hin.2.2 0 hl (by omega)
    rw [← List.getD_eq_getElem _ 0 hl] at this
    exact absurd ht.1 (not_lt.2 this)
  have h1 : i < xk.length := by
    by_contra h
    have := hin.2.1 (xk.length - 1) (by omega) (by omega)
    rw [← List.getD_eq_getElem _ 0 (by omega)] at this
    exact absurd this (not_lt.2 ht.2)
  refine ⟨i - 1, by omega, ?_, ?_⟩
  · have := hin.2.1 (i - 1) (by omega) (by omega)
    rwa [← List.getD_eq_getElem _ 0 (by omega)] at this
  · have := hin.2.2 i h1 le_rfl
    rw [← List.getD_eq_getElem _ 0 h1] at this
    rwa [Nat.sub_add_cancel h0]

/-- near an interior point -/
theorem inside_hasDerivAt (hp : WF p) {k : ℕ} (hm : ∀ j, 0 < j → j + 1 < p.xk.length → MatchAt p k j ∧ MatchAt p (k + 1) j) {t : ℝ}
    (ht : t ∈ Ioo (p.xk.getD 0 0) (p.xk.getD (p.xk.length - 1) 0)) : HasDerivAt (inside p k) (inside p (k + 1) t) t := by
  have e : inside p k =ᶠ[nhds t] (p.deriv k).call := by
    filter_upwards [lt_mem_nhds ht.1] with s hs using inside_of_lt hp hs
  refine HasDerivAt.congr_of_eventuallyEq ?_ e
  obtain ⟨hw, hxk, -, hd⟩ := C09_deriv hp k
  obtain ⟨i, hi, _⟩ := existsUnique_inPiece hp.inc t
  have e1 : inside p (k + 1) t = ((p.deriv k).deriv 1).call t := by
    rw [inside_of_lt hp ht.1, ((C09_deriv hp (k + 1)).2.2.2 i t hi).1, ((C09_deriv hw 1).2.2.2 i t (by rwa [hxk])).1, (hd i t hi).2, Nat.add_comm]
  rw [e1]
  by_cases htx : t ∈ (p.deriv k).xk
  · obtain ⟨j, hj, rfl⟩ := List.getElem_of_mem htx
    have hj' : j < p.xk.length := hxk ▸ hj
    have et : (p.deriv k).xk[j] = p.xk.getD j 0 := by rw [List.getD_eq_getElem _ _ hj']; simp only [hxk]
    have hj0 : 0 < j := by
      by_contra h
      obtain rfl : j = 0 := by omega
      exact absurd et ht.1.ne'
    have hj1 : j + 1 < p.xk.length := by
      by_contra h
      obtain rfl : j = p.xk.length - 1 := by omega
      exact absurd et ht.2.ne
    have hM := hm j hj0 hj1
    have hdd := fun i s q => PwPoly.deriv_pieceDeriv hp k i s q
    refine call_hasDerivAt_knot hw hj ?_ ?_
    · have := hM.1
      unfold MatchAt at this ⊢
      rw [hdd, hdd, hxk, Nat.zero_add]
      exact this
    · have := hM.2
      unfold MatchAt at this ⊢
      rw [hdd, hdd, hxk, Nat.add_comm]
      exact this
  · exact call_hasDerivAt hw htx

theorem inside_off (hp : WF p) (k : ℕ) {t : ℝ} (ht : p.xk.getD 0 0 < t) (htx : t ∉ p.xk) : HasDerivAt (inside p k) (inside p (k + 1) t) t := by
  have e : inside p k =ᶠ[nhds t] (p.deriv k).call := by
    filter_upwards [lt_mem_nhds ht] with s hs using inside_of_lt hp hs
  refine HasDerivAt.congr_of_eventuallyEq ?_ e
  obtain ⟨hw, hxk, -, hd⟩ := C09_deriv hp k
  obtain ⟨i, hi, _⟩ := existsUnique_inPiece hp.inc t
  have e1 : inside p (k + 1) t = ((p.deriv k).deriv 1).call t := by
    rw [inside_of_lt hp ht, ((C09_deriv hp (k + 1)).2.2.2 i t hi).1, ((C09_deriv hw 1).2.2.2 i t (by rwa [hxk])).1, (hd i t hi).2, Nat.add_comm]
  rw [e1]
  exact call_hasDerivAt hw (by rwa [hxk])

theorem inside_continuousOn (hp : WF p) (hl : 2 ≤ p.xk.length) {k : ℕ} (hm : ∀ j, 0 < j → j + 1 < p.xk.length → MatchAt p k j) :
    ContinuousOn (inside p k) (Icc (p.xk.getD 0 0) (p.xk.getD (p.xk.length - 1) 0)) := by
  have h01 : p.xk.getD 0 0 < p.xk.getD 1 0 := sorted_lt hp.inc (by omega) (by omega)
  intro t ht
  rcases eq_or_lt_of_le ht.1 with rfl | h0
  · have e : inside p k =ᶠ[nhdsWithin (p.xk.getD 0 0) (Icc (p.xk.getD 0 0) (p.xk.getD (p.xk.length - 1) 0))] fun t => pieceDeriv p 1 t k := by
      filter_upwards [self_mem_nhdsWithin, mem_nhdsWithin_of_mem_nhds (gt_mem_nhds h01)] with s hs1 hs2
      rcases eq_or_lt_of_le hs1.1 with e | h
      · unfold inside
        rw [if_pos e.ge]
      · exact inside_Ioc hp (i := 0) (by omega) ⟨h, hs2.le⟩
    exact ((pieceDeriv_continuous p 1 k).continuousWithinAt).congr_of_eventuallyEq e (by unfold inside; rw [if_pos le_rfl])
  rcases eq_or_lt_of_le ht.2 with h1 | h1
  · subst h1
    obtain ⟨i, hi⟩ : ∃ i, i + 2 = p.xk.length := ⟨p.xk.length - 2, by omega⟩
    have ei : p.xk.length - 1 = i + 1 := by omega
    have h2 : p.xk.getD i 0 < p.xk.getD (i + 1) 0 := sorted_lt hp.inc (by omega) (by omega)
    rw [ei]
    have e : inside p k =ᶠ[nhdsWithin (p.xk.getD (i + 1) 0) (Icc (p.xk.getD 0 0) (p.xk.getD (i + 1) 0))] fun t => pieceDeriv p (i + 1) t k := by
      filter_upwards [self_mem_nhdsWithin, mem_nhdsWithin_of_mem_nhds (lt_mem_nhds h2)] with s hs1 hs2
      exact inside_Ioc hp (by omega) ⟨hs2, hs1.2⟩
    exact ((pieceDeriv_continuous p (i + 1) k).continuousWithinAt).congr_of_eventuallyEq e (inside_Ioc hp (by omega) ⟨h2, le_rfl⟩)
  · have e : inside p k =ᶠ[nhds t] (p.deriv k).call := by
      filter_upwards [lt_mem_nhds h0] with s hs using inside_of_lt hp hs
    obtain ⟨hw, hxk, -, hd⟩ := C09_deriv hp k
    refine (ContinuousAt.congr ?_ e.symm).continuousWithinAt
    refine call_continuousAt hw fun j hj et => ?_
    have hj' : j < p.xk.length := hxk ▸ hj
    have et' : t = p.xk.getD j 0 := by rw [et, List.getD_eq_getElem _ _ hj']; simp only [hxk]
    have hj0 : 0 < j := by
      by_contra h
      obtain rfl : j = 0 := by omega
      exact absurd et' h0.ne'
    have hj1 : j + 1 < p.xk.length := by
      by_contra h
      obtain rfl : j = p.xk.length - 1 := by omega
      exact absurd et' h1.ne
    have := hm j hj0 hj1
    unfold MatchAt at this ⊢
    rw [PwPoly.deriv_pieceDeriv hp, PwPoly.deriv_pieceDeriv hp, hxk, Nat.zero_add]
    exact this

theorem inside_memLp (hp : WF p) (hl : 2 ≤ p.xk.length) (m : ℕ) :
    MemLp (inside p m) 2 (volume.restrict (Icc (p.xk.getD 0 0) (p.xk.getD (p.xk.length - 1) 0))) := by
  have hsq : IntervalIntegrable (fun t => inside p m t ^ 2) volume (p.xk.getD 0 0) (p.xk.getD (p.xk.length - 1) 0) := by
    refine IntervalIntegrable.trans_iterate (a := fun k => p.xk.getD k 0) fun k hk => ?_
    have : IntervalIntegrable (fun t => pieceDeriv p (k + 1) t m ^ 2) volume (p.xk.getD k 0) (p.xk.getD (k + 1) 0) :=
      ((pieceDeriv_continuous p (k + 1) m).pow 2).intervalIntegrable _ _
    refine this.congr fun t ht => ?_
    rw [uIoc_of_le (sorted_le hp.inc (by omega) (by omega))] at ht
    simp only [inside_Ioc hp (by omega) ht]
  have h1 : IntervalIntegrable (inside p m) volume (p.xk.getD 0 0) (p.xk.getD (p.xk.length - 1) 0) := by
    refine (call_intervalIntegrable (C09_deriv hp m).1 _ _).congr fun t ht => ?_
    rw [uIoc_of_le (sorted_le hp.inc (by omega) (by omega))] at ht
    rw [inside_of_lt hp ht.1]
  have hle := sorted_le hp.inc (Nat.zero_le (p.xk.length - 1)) (by omega)
  rw [intervalIntegrable_iff_integrableOn_Icc_of_le hle] at hsq h1
  exact (memLp_two_iff_integrable_sq h1.aestronglyMeasurable).2 hsq

/-- a piecewise polynomial with continuous derivatives below `m` has a square integrable derivative of order `m` -/
theorem inside_squareIntegrable (hp : WF p) (hl : 2 ≤ p.xk.length) {m : ℕ} (hm1 : 1 ≤ m)
    (hm : ∀ j, 0 < j → j + 1 < p.xk.length → ∀ k < m, MatchAt p k j) :
    SquareIntegrable m (inside p) (p.xk.getD 0 0) (p.xk.getD (p.xk.length - 1) 0) := by
  refine ⟨fun k hk => inside_continuousOn hp hl fun j h1 h2 => hm j h1 h2 k hk,
    fun k hk x hx => inside_hasDerivAt hp (fun j h1 h2 => ⟨hm j h1 h2 k (by omega), hm j h1 h2 (k + 1) hk⟩) hx,
    ⟨{x | x ∈ p.xk}, knots_countable _, fun x hx => ?_⟩, inside_memLp hp hl m⟩
  have := inside_off hp (m - 1) hx.1.1 hx.2
  rwa [Nat.sub_add_cancel hm1] at this

theorem const_of_deriv_zero {e : ℕ → ℝ → ℝ} {a b : ℝ} {T : Set ℝ} (hT : T.Countable) {k : ℕ} (hc : ContinuousOn (e k) (Icc a b))
    (hd : ∀ x ∈ Ioo a b \ T, HasDerivAt (e k) (e (k + 1) x) x) (h0 : ∀ᵐ x ∂(volume.restrict (Icc a b)), e (k + 1) x = 0) :
    ∀ t ∈ Icc a b, e k t = e k a := by
  intro t ht
  have h0' : ∀ᵐ x ∂(volume.restrict (uIoc a t)), e (k + 1) x = 0 := by
    rw [uIoc_of_le ht.1]
    have hsub : Ioc a t ⊆ Icc a b := fun x hx => ⟨hx.1.le, hx.2.trans ht.2⟩
    exact ae_restrict_of_ae_restrict_of_subset hsub h0
  have hi : IntervalIntegrable (e (k + 1)) volume a t := by
    refine IntervalIntegrable.congr_ae (f := fun _ => (0 : ℝ)) intervalIntegrable_const ?_
    filter_upwards [h0'] with x hx using hx.symm
  have := integral_eq_of_hasDerivAt_off_countable_of_le (e k) (e (k + 1)) ht.1 hT (hc.mono (Icc_subset_Icc le_rfl ht.2))
    (fun x hx => hd x ⟨⟨hx.1.1, hx.1.2.trans_le ht.2⟩, hx.2⟩) hi
  have h2 : ∫ x in a..t, e (k + 1) x = 0 := by
    rw [intervalIntegral.integral_congr_ae (g := fun _ => (0 : ℝ)) ((ae_restrict_iff' measurableSet_uIoc).1 h0')]
    simp
  linarith

/-- a function with at least `m` zeros whose derivative of order `m` is zero is zero -/
theorem zero_of_zeros {m : ℕ} (hm : 1 ≤ m) {e : ℕ → ℝ → ℝ} {a b : ℝ} (he : SquareIntegrable m e a b) (x : List ℝ) (hs : x.Pairwise (· < ·))
    (hl : m ≤ x.length) (hx : ∀ y ∈ x, y ∈ Icc a b ∧ e 0 y = 0) (h0 : ∀ᵐ t ∂(volume.restrict (Icc a b)), e m t = 0) :
    ∀ t ∈ Icc a b, e 0 t = 0 := by
  have hz : ∀ k < m, ∃ l : List ℝ, l.length = x.length - k ∧ l.Pairwise (· < ·) ∧ ∀ y ∈ l, y ∈ Icc a b ∧ e k y = 0 := by
    intro k
    induction k with
    | zero => exact fun _ => ⟨x, rfl, hs, hx⟩
    | succ k ih =>
      intro hk
      obtain ⟨l, e1, hp, hz⟩ := ih (by omega)
      match l, e1, hp, hz with
      | [], e1, _, _ => simp at e1; omega
      | x0 :: l, e1, hp, hz =>
        obtain ⟨l', e2, hp', hz'⟩ := rolle_list (he.cont k (by omega)) (he.deriv k hk) l x0 hp hz
        refine ⟨l', by simp at e1; omega, hp', fun y hy => ⟨Ioo_subset_Icc_self (hz' y hy).2.1, (hz' y hy).2.2⟩⟩
  obtain ⟨T, hT, hd⟩ := he.off
  have down : ∀ j k, k + j + 1 = m → ∀ t ∈ Icc a b, e k t = 0 := by
    intro j
    induction j with
    | zero =>
      intro k hk t ht
      have hc := const_of_deriv_zero hT (he.cont k (by omega)) (hd k (by omega)) (by rw [show k + 1 = m by omega]; exact h0)
      obtain ⟨l, e1, -, hl'⟩ := hz k (by omega)
      obtain ⟨y, hy⟩ := List.exists_mem_of_length_pos (l := l) (by omega)
      rw [hc t ht, ← hc y (hl' y hy).1, (hl' y hy).2]
    | succ j ih =>
      intro k hk t ht
      have hc := const_of_deriv_zero hT (he.cont k (by omega)) (hd k (by omega))
        ((ae_restrict_iff' measurableSet_Icc).2 (.of_forall fun s hs => ih (k + 1) (by omega) s hs))
      obtain ⟨l, e1, -, hl'⟩ := hz k (by omega)
      obtain ⟨y, hy⟩ := List.exists_mem_of_length_pos (l := l) (by omega)
      rw [hc t ht, ← hc y (hl' y hy).1, (hl' y hy).2]
  exact down (m - 1) 0 (by omega)

theorem Spec.SquareIntegrable.sub {m : ℕ} {G H : ℕ → ℝ → ℝ} {a b : ℝ} (hG : SquareIntegrable m G a b) (hH : SquareIntegrable m H a b) :
    SquareIntegrable m (fun k t => G k t - H k t) a b := by
  refine ⟨fun k hk => (hG.cont k hk).sub (hH.cont k hk), fun k hk x hx => (hG.deriv k hk x hx).sub (hH.deriv k hk x hx), ?_, hG.sq.sub hH.sq⟩
  obtain ⟨T, hT, h1⟩ := hG.last
  obtain ⟨T', hT', h1'⟩ := hH.last
  exact ⟨T ∪ T', hT.union hT', fun x hx => (h1 x ⟨hx.1, fun h => hx.2 (Or.inl h)⟩).sub (h1' x ⟨hx.1, fun h => hx.2 (Or.inr h)⟩)⟩

theorem inside_sub_knots (hp : WF p) {G : ℕ → ℝ → ℝ} (hi : ∀ j < p.xk.length, G 0 (p.xk.getD j 0) = inside p 0 (p.xk.getD j 0)) :
    ∀ y ∈ p.xk, y ∈ Icc (p.xk.getD 0 0) (p.xk.getD (p.xk.length - 1) 0) ∧ G 0 y - inside p 0 y = 0 := by
  intro y hy
  obtain ⟨j, hj, rfl⟩ := List.getElem_of_mem hy
  rw [← List.getD_eq_getElem _ 0 hj]
  exact ⟨⟨sorted_le hp.inc (by omega) hj, sorted_le hp.inc (by omega) (by omega)⟩, by rw [hi j hj]; ring⟩

/-- a function with zero derivatives at one end is zero -/
theorem zero_of_initial {m : ℕ} {e : ℕ → ℝ → ℝ} {a b : ℝ} (he : SquareIntegrable m e a b) (hm : 1 ≤ m)
    (ha : ∀ k < m, e k a = 0) (h0 : ∀ᵐ t ∂(volume.restrict (Icc a b)), e m t = 0) : ∀ t ∈ Icc a b, e 0 t = 0 := by
  obtain ⟨T, hT, hd⟩ := he.off
  have down : ∀ j k, k + j + 1 = m → ∀ t ∈ Icc a b, e k t = 0 := by
    intro j
    induction j with
    | zero =>
      intro k hk t ht
      rw [const_of_deriv_zero hT (he.cont k (by omega)) (hd k (by omega)) (by rw [show k + 1 = m by omega]; exact h0) t ht, ha k (by omega)]
    | succ j ih =>
      intro k hk t ht
      rw [const_of_deriv_zero hT (he.cont k (by omega)) (hd k (by omega))
        ((ae_restrict_iff' measurableSet_Icc).2 (.of_forall fun s hs => ih (k + 1) (by omega) s hs)) t ht, ha k (by omega)]
  exact down (m - 1) 0 (by omega)

/-- a periodic function is constant -/
theorem const_of_periodic {m : ℕ} {e : ℕ → ℝ → ℝ} {a b : ℝ} (hab : a < b) (he : SquareIntegrable m e a b) (hm : 1 ≤ m)
    (ha : ∀ k < m, e k b = e k a) (h0 : ∀ᵐ t ∂(volume.restrict (Icc a b)), e m t = 0) : ∀ t ∈ Icc a b, e 0 t = e 0 a := by
  obtain ⟨T, hT, hd⟩ := he.off
  have down : ∀ j k, k + j + 1 = m → ∀ t ∈ Icc a b, e k t = e k a := by
    intro j
    induction j with
    | zero =>
      intro k hk t ht
      exact const_of_deriv_zero hT (he.cont k (by omega)) (hd k (by omega)) (by rw [show k + 1 = m by omega]; exact h0) t ht
    | succ j ih =>
      intro k hk
      have hc := ih (k + 1) (by omega)
      have hint := integral_eq_of_hasDerivAt_off_countable_of_le (e k) (e (k + 1)) hab.le hT (he.cont k (by omega)) (hd k (by omega))
        ((he.cont (k + 1) (by omega)).intervalIntegrable_of_Icc hab.le)
      rw [integral_Ioc_congr (g := fun _ => e (k + 1) a) hab.le (fun t ht => hc t ⟨ht.1.le, ht.2⟩), intervalIntegral.integral_const, ha k (by omega),
        sub_self, smul_eq_mul, mul_eq_zero] at hint
      have hz : e (k + 1) a = 0 := hint.resolve_left (sub_pos.2 hab).ne'
      exact const_of_deriv_zero hT (he.cont k (by omega)) (hd k (by omega))
        ((ae_restrict_iff' measurableSet_Icc).2 (.of_forall fun s hs => by rw [hc s hs, hz]))
  exact down (m - 1) 0 (by omega)

/-- The minimum property: Pythagoras, and uniqueness of the derivative of order `m` -/
theorem min_property (hp : WF p) (hl : 2 ≤ p.xk.length) (hm1 : 1 ≤ m) (hn : p.n ≤ 2 * m)
    (hm : ∀ j, 0 < j → j + 1 < p.xk.length → ∀ k, k + 2 ≤ 2 * m → MatchAt p k j) {G : ℕ → ℝ → ℝ}
    (hG : SquareIntegrable m G (p.xk.getD 0 0) (p.xk.getD (p.xk.length - 1) 0))
    (hi : ∀ j < p.xk.length, G 0 (p.xk.getD j 0) = inside p 0 (p.xk.getD j 0))
    (hend : parts m (fun k t => pieceDeriv p (p.xk.length - 1) t k) G (p.xk.getD (p.xk.length - 1) 0) =
      parts m (fun k t => pieceDeriv p 1 t k) G (p.xk.getD 0 0)) :
    (∫ t in (p.xk.getD 0 0)..(p.xk.getD (p.xk.length - 1) 0), G m t ^ 2 =
      (∫ t in (p.xk.getD 0 0)..(p.xk.getD (p.xk.length - 1) 0), (p.deriv m).call t ^ 2) +
        ∫ t in (p.xk.getD 0 0)..(p.xk.getD (p.xk.length - 1) 0), (G m t - (p.deriv m).call t) ^ 2) ∧
    (∫ t in (p.xk.getD 0 0)..(p.xk.getD (p.xk.length - 1) 0), G m t ^ 2 ≤
        ∫ t in (p.xk.getD 0 0)..(p.xk.getD (p.xk.length - 1) 0), (p.deriv m).call t ^ 2 →
      SquareIntegrable m (fun k t => G k t - inside p k t) (p.xk.getD 0 0) (p.xk.getD (p.xk.length - 1) 0) ∧
      ∀ᵐ t ∂(volume.restrict (Icc (p.xk.getD 0 0) (p.xk.getD (p.xk.length - 1) 0))), G m t - inside p m t = 0) := by
  have hins : ∀ i < p.xk.length - 1, inside p 0 (p.xk.getD i 0) = pieceDeriv p (i + 1) (p.xk.getD i 0) 0 ∧
      inside p 0 (p.xk.getD (i + 1) 0) = pieceDeriv p (i + 1) (p.xk.getD (i + 1) 0) 0 := by
    intro i hi'
    have hlt : p.xk.getD i 0 < p.xk.getD (i + 1) 0 := sorted_lt hp.inc (by omega) (by omega)
    refine ⟨?_, inside_Ioc hp (by omega) ⟨hlt, le_rfl⟩⟩
    rcases Nat.eq_zero_or_pos i with rfl | h0
    · unfold inside
      rw [if_pos le_rfl]
    · obtain ⟨j, rfl⟩ : ∃ j, i = j + 1 := ⟨i - 1, by omega⟩
      have hlt : p.xk.getD j 0 < p.xk.getD (j + 1) 0 := sorted_lt hp.inc (by omega) (by omega)
      rw [inside_Ioc hp (by omega) ⟨hlt, le_rfl⟩]
      exact hm (j + 1) (by omega) (by omega) 0 (by omega)
  have hpyth := holladay (m := m) (N := p.xk.length - 1) (Q := fun i k t => pieceDeriv p (i + 1) t k) (G := G) (a := fun i => p.xk.getD i 0)
    (D := (p.deriv m).call) (fun i h => sorted_lt hp.inc (by omega) (by omega)) hG (fun i k t => pieceDeriv_hasDerivAt p (i + 1) t k)
    (fun i h t => by
      unfold pieceDeriv
      refine PwPoly.polyDeriv_eq_zero _ _ _ ?_
      have hlen : i + 1 < p.c.length := by rw [hp.len]; omega
      unfold piece
      rw [List.getD_eq_getElem _ _ hlen, hp.row _ (List.getElem_mem hlen)]
      exact hn)
    (fun i h t ht => ((C09_deriv hp m).2.2.2 (i + 1) t (inPiece_between hp.inc (by omega) ht.1 ht.2)).1)
    (fun i h k hk => by
      have := hm (i + 1) (by omega) (by omega) k hk
      exact this)
    (fun i h => by
      rw [hi i (by omega), hi (i + 1) (by omega)]
      exact hins i h)
    (by omega) (by
      have e : p.xk.length - 1 - 1 + 1 = p.xk.length - 1 := by omega
      simp only [e]
      exact hend)
  refine ⟨hpyth, fun hle => ?_⟩
  have hH := inside_squareIntegrable hp hl hm1 fun j h1 h2 k hk => hm j h1 h2 k (by omega)
  have hle0 := sorted_le hp.inc (Nat.zero_le (p.xk.length - 1)) (by omega)
  have he := hG.sub hH
  refine ⟨he, ?_⟩
  have h1 : ∫ t in (p.xk.getD 0 0)..(p.xk.getD (p.xk.length - 1) 0), (G m t - inside p m t) ^ 2 ≤ 0 := by
    have e := integral_Ioc_congr hle0 fun t ht => show (G m t - inside p m t) ^ 2 = (G m t - (p.deriv m).call t) ^ 2 by
      rw [inside_of_lt hp ht.1]
    rw [e]
    linarith [hpyth]
  rw [intervalIntegral.integral_of_le hle0, ← integral_Icc_eq_integral_Ioc] at h1
  have h2 := (integral_eq_zero_iff_of_nonneg (μ := volume.restrict (Icc (p.xk.getD 0 0) (p.xk.getD (p.xk.length - 1) 0)))
    (fun t => sq_nonneg (G m t - inside p m t)) he.sq.integrable_sq).1 (le_antisymm h1 (integral_nonneg fun t => sq_nonneg _))
  filter_upwards [h2] with t ht
  simpa using ht

end Npplus
