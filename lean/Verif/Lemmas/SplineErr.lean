import Verif.Lemmas.SplineMin

/-!
# Error bounds from the minimum property
-/

set_option linter.unusedSectionVars false
namespace Npplus
open Spec Set MeasureTheory

/-- zeros of the derivatives of a function with `m` zeros -/
theorem zeros_all {m : ℕ} {e : ℕ → ℝ → ℝ} {a b : ℝ} (he : SquareIntegrable m e a b) {x : List ℝ} (hs : x.Pairwise (· < ·))
    (hl : m ≤ x.length) (hx : ∀ y ∈ x, y ∈ Icc a b ∧ e 0 y = 0) : ∀ k < m, ∃ z ∈ Icc a b, e k z = 0 := by
  have hz : ∀ k < m, ∃ l : List ℝ, l.length = x.length - k ∧ l.Pairwise (· < ·) ∧ ∀ y ∈ l, y ∈ Icc a b ∧ e k y = 0 := by
    intro k
    induction k with
    | zero => exact fun _ => ⟨x, rfl, hs, hx⟩
    | succ k ih =>
      intro hk
      obtain ⟨l, e1, hp, hz⟩ := ih (by omega)
      match l, e1, hp, hz with
      | [], e1, _, _ => simp at e1; omega
      | x0 :: l, e1, hp, hz =>
        obtain ⟨l', e2, hp', hz'⟩ := rolle_list (he.cont k (by omega)) (he.deriv k hk) l x0 hp hz
        refine ⟨l', by simp at e1; omega, hp', fun y hy => ⟨Ioo_subset_Icc_self (hz' y hy).2.1, (hz' y hy).2.2⟩⟩
  intro k hk
  obtain ⟨l, e1, -, h⟩ := hz k hk
  obtain ⟨y, hy⟩ := List.exists_mem_of_length_pos (l := l) (by omega)
  exact ⟨y, h y hy⟩

/-- Cauchy-Schwarz -/
theorem sq_integral_le {f : ℝ → ℝ} {a b : ℝ} (hab : a ≤ b) (h : MemLp f 2 (volume.restrict (Icc a b))) {s t : ℝ} (hs : s ∈ Icc a b)
    (ht : t ∈ Icc a b) : (∫ r in s..t, f r) ^ 2 ≤ (b - a) * ∫ r in a..b, f r ^ 2 := by
  obtain ⟨h1, h2⟩ := memLp_intervalIntegrable hab h
  have hI0 : 0 ≤ ∫ r in a..b, f r ^ 2 := intervalIntegral.integral_nonneg hab fun r _ => sq_nonneg _
  have key : ∀ s t, s ∈ Icc a b → t ∈ Icc a b → s ≤ t → (∫ r in s..t, f r) ^ 2 ≤ (b - a) * ∫ r in a..b, f r ^ 2 := by
    intro s t hs ht hst
    rcases eq_or_lt_of_le hst with rfl | hlt
    · simp only [intervalIntegral.integral_same]
      have : 0 ≤ (b - a) * ∫ r in a..b, f r ^ 2 := mul_nonneg (sub_nonneg.2 hab) hI0
      simpa using this
    have hsub : uIcc s t ⊆ uIcc a b := by
      rw [uIcc_of_le hst, uIcc_of_le hab]
      exact Icc_subset_Icc hs.1 ht.2
    have i1 := h1.mono_set hsub
    have i2 := h2.mono_set hsub
    have hJ : ∫ r in s..t, f r ^ 2 ≤ ∫ r in a..b, f r ^ 2 :=
      intervalIntegral.integral_mono_interval hs.1 hst ht.2 (.of_forall fun r => sq_nonneg _) h2
    set A := ∫ r in s..t, f r with hA
    set J := ∫ r in s..t, f r ^ 2 with hJd
    set c := A / (t - s) with hc
    have hexp : ∫ r in s..t, (f r - c) ^ 2 = J - 2 * c * A + c ^ 2 * (t - s) := by
      have e : (fun r => (f r - c) ^ 2) = fun r => (f r ^ 2 - 2 * c * f r) + c ^ 2 := by
        funext r
        ring
      rw [e, intervalIntegral.integral_add (i2.sub (i1.const_mul _)) intervalIntegrable_const,
        intervalIntegral.integral_sub i2 (i1.const_mul _), intervalIntegral.integral_const_mul, intervalIntegral.integral_const, smul_eq_mul]
      ring
    have hnn : 0 ≤ ∫ r in s..t, (f r - c) ^ 2 := intervalIntegral.integral_nonneg hst fun r _ => sq_nonneg _
    rw [hexp] at hnn
    have hd : 0 < t - s := sub_pos.2 hlt
    have hcA : c * (t - s) = A := div_mul_cancel₀ _ hd.ne'
    have h3 : A ^ 2 ≤ (t - s) * J := by
      have := mul_nonneg hd.le hnn
      have e : (t - s) * (J - 2 * c * A + c ^ 2 * (t - s)) = (t - s) * J - 2 * (c * (t - s)) * A + (c * (t - s)) ^ 2 := by ring
      rw [e, hcA] at this
      nlinarith
    have hJ0 : 0 ≤ J := intervalIntegral.integral_nonneg hst fun r _ => sq_nonneg _
    calc A ^ 2 ≤ (t - s) * J := h3
      _ ≤ (b - a) * J := by
        refine mul_le_mul_of_nonneg_right ?_ hJ0
        linarith [hs.1, ht.2]
      _ ≤ (b - a) * ∫ r in a..b, f r ^ 2 := mul_le_mul_of_nonneg_left hJ (sub_nonneg.2 hab)
  rcases le_total s t with h | h
  · exact key s t hs ht h
  · rw [intervalIntegral.integral_symm, neg_sq]
    exact key t s ht hs h

/-- a function with `m` zeros is small -/
theorem err_window {m : ℕ} {e : ℕ → ℝ → ℝ} {a b : ℝ} (hab : a ≤ b) (he : SquareIntegrable m e a b) {x : List ℝ}
    (hs : x.Pairwise (· < ·)) (hl : m ≤ x.length) (hx : ∀ y ∈ x, y ∈ Icc a b ∧ e 0 y = 0) :
    ∀ k < m, ∀ t ∈ Icc a b, |e k t| ≤ (b - a) ^ (m - 1 - k) * √((b - a) * ∫ r in a..b, e m r ^ 2) := by
  have hz := zeros_all he hs hl hx
  obtain ⟨T, hT, hd⟩ := he.off
  set B := √((b - a) * ∫ r in a..b, e m r ^ 2) with hB
  have hB0 : 0 ≤ B := Real.sqrt_nonneg _
  have hftc : ∀ k < m, IntervalIntegrable (e (k + 1)) volume a b → ∀ z ∈ Icc a b, ∀ t ∈ Icc a b, ∫ r in z..t, e (k + 1) r = e k t - e k z := by
    intro k hk hi z hz t ht
    have hsub : uIcc z t ⊆ Icc a b := uIcc_subset_Icc hz ht
    refine integral_eq_of_hasDerivAt_off_countable (e k) (e (k + 1)) hT ((he.cont k hk).mono hsub) (fun r hr => hd k hk r ⟨?_, hr.2⟩)
      (hi.mono_set (by rwa [uIcc_of_le hab]))
    have h1 := hr.1
    constructor
    · exact lt_of_le_of_lt (le_min hz.1 ht.1) h1.1
    · exact lt_of_lt_of_le h1.2 (max_le hz.2 ht.2)
  have down : ∀ j k, k + j + 1 = m → ∀ t ∈ Icc a b, |e k t| ≤ (b - a) ^ j * B := by
    intro j
    induction j with
    | zero =>
      intro k hk t ht
      obtain ⟨z, hzm, hz0⟩ := hz k (by omega)
      have hkm : k + 1 = m := by omega
      have h1 := hftc k (by omega) (by rw [hkm]; exact (memLp_intervalIntegrable hab he.sq).1) z hzm t ht
      rw [hz0, sub_zero, hkm] at h1
      rw [pow_zero, one_mul, ← h1, hB]
      refine Real.le_sqrt_of_sq_le ?_
      rw [sq_abs]
      exact sq_integral_le hab he.sq hzm ht
    | succ j ih =>
      intro k hk t ht
      obtain ⟨z, hzm, hz0⟩ := hz k (by omega)
      have h1 := hftc k (by omega) ((he.cont (k + 1) (by omega)).intervalIntegrable_of_Icc hab) z hzm t ht
      rw [hz0, sub_zero] at h1
      rw [← h1]
      have h2 := intervalIntegral.norm_integral_le_of_norm_le_const (f := e (k + 1)) (a := z) (b := t) (C := (b - a) ^ j * B) fun r hr => by
        rw [Real.norm_eq_abs]
        exact ih (k + 1) (by omega) r (uIcc_subset_Icc hzm ht (uIoc_subset_uIcc hr))
      rw [Real.norm_eq_abs] at h2
      refine h2.trans ?_
      have h3 : |t - z| ≤ b - a := by
        rw [abs_le]
        exact ⟨by linarith [hzm.2, ht.1], by linarith [hzm.1, ht.2]⟩
      calc (b - a) ^ j * B * |t - z| ≤ (b - a) ^ j * B * (b - a) :=
            mul_le_mul_of_nonneg_left h3 (mul_nonneg (pow_nonneg (sub_nonneg.2 hab) _) hB0)
        _ = (b - a) ^ (j + 1) * B := by ring
  intro k hk t ht
  exact down (m - 1 - k) k (by omega) t ht

/-- a function with zeros at all of at least `m` knots, neighbours at most `h` apart -/
theorem err_knots {m : ℕ} (hm : 1 ≤ m) {e : ℕ → ℝ → ℝ} {x : List ℝ} (hs : x.Pairwise (· < ·)) (hx2 : 2 ≤ x.length) (hl : m ≤ x.length)
    (he : SquareIntegrable m e (x.getD 0 0) (x.getD (x.length - 1) 0)) (hz : ∀ j < x.length, e 0 (x.getD j 0) = 0) {h : ℝ}
    (hh : ∀ i, i + 1 < x.length → x.getD (i + 1) 0 - x.getD i 0 ≤ h) :
    ∀ k < m, ∀ t ∈ Icc (x.getD 0 0) (x.getD (x.length - 1) 0),
      |e k t| ≤ ((max m 2 - 1 : ℕ) * h) ^ (m - 1 - k) * √((max m 2 - 1 : ℕ) * h * ∫ r in (x.getD 0 0)..(x.getD (x.length - 1) 0), e m r ^ 2) := by
  intro k hk t ht
  obtain ⟨i, hi, hti⟩ := exists_interval hs hx2 ht
  set M := max m 2 with hM
  have hM2 : 2 ≤ M := le_max_right _ _
  have hMm : m ≤ M := le_max_left _ _
  have hML : M ≤ x.length := max_le hl hx2
  set s := min i (x.length - M) with hsd
  have hsi : s ≤ i := min_le_left _ _
  have hsL : s ≤ x.length - M := min_le_right _ _
  have hcov : i + 1 ≤ s + (M - 1) := by omega
  have hend : s + (M - 1) < x.length := by omega
  have hw : ∀ q, s + q < x.length → x.getD (s + q) 0 - x.getD s 0 ≤ q * h := by
    intro q
    induction q with
    | zero => intro _; simp
    | succ q ih =>
      intro hq
      have h1 := ih (by omega)
      have h2 := hh (s + q) (by omega)
      push_cast
      rw [show s + (q + 1) = s + q + 1 by rfl]
      linarith
  have hW := hw (M - 1) hend
  have h0 : x.getD 0 0 ≤ x.getD s 0 := sorted_le hs (Nat.zero_le _) (by omega)
  have h1 : x.getD (s + (M - 1)) 0 ≤ x.getD (x.length - 1) 0 := sorted_le hs (by omega) (by omega)
  have hab : x.getD s 0 ≤ x.getD (s + (M - 1)) 0 := sorted_le hs (by omega) hend
  have htw : t ∈ Icc (x.getD s 0) (x.getD (s + (M - 1)) 0) :=
    ⟨(sorted_le hs hsi (by omega)).trans hti.1, hti.2.trans (sorted_le hs hcov hend)⟩
  have hb := err_window hab (he.mono h0 h1) (x := (List.range m).map fun q => x.getD (s + q) 0) (by
      rw [List.pairwise_map]
      refine List.Pairwise.imp_of_mem (R := (· < ·)) (fun ha hb hab => ?_) List.pairwise_lt_range
      exact sorted_lt hs (by omega) (by have := List.mem_range.1 hb; omega)) (by simp) (fun y hy => by
      obtain ⟨q, hq, rfl⟩ := List.mem_map.1 hy
      have hq := List.mem_range.1 hq
      exact ⟨⟨sorted_le hs (by omega) (by omega), sorted_le hs (by omega) hend⟩, hz _ (by omega)⟩) k hk t htw
  refine hb.trans ?_
  have hd0 : 0 ≤ x.getD (s + (M - 1)) 0 - x.getD s 0 := sub_nonneg.2 hab
  have hi2 := (memLp_intervalIntegrable (sorted_le hs (Nat.zero_le _) (by omega)) he.sq).2
  have hJ : ∫ r in (x.getD s 0)..(x.getD (s + (M - 1)) 0), e m r ^ 2 ≤ ∫ r in (x.getD 0 0)..(x.getD (x.length - 1) 0), e m r ^ 2 :=
    intervalIntegral.integral_mono_interval h0 hab h1 (.of_forall fun r => sq_nonneg _) hi2
  have hJ0 : 0 ≤ ∫ r in (x.getD s 0)..(x.getD (s + (M - 1)) 0), e m r ^ 2 := intervalIntegral.integral_nonneg hab fun r _ => sq_nonneg _
  refine mul_le_mul (pow_le_pow_left₀ hd0 hW _) (Real.sqrt_le_sqrt (mul_le_mul hW hJ hJ0 (hd0.trans hW))) (Real.sqrt_nonneg _)
    (pow_nonneg (hd0.trans hW) _)

end Npplus
