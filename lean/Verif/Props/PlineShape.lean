import Verif.Props.Pline
import Mathlib.Analysis.Convex.Function
import Mathlib.Tactic.FieldSimp

/-!
# Property C104: `pline` keeps the shape of the data

The range, the order and the convexity of the data, and the inverse function by exchanging the columns of the table.
-/

set_option linter.unusedSectionVars false
namespace Npplus
open Spec PwPoly Spl

section
variable {K : Type} [Field K] [LinearOrder K] [IsStrictOrderedRing K] {x y : List K}

theorem lineThrough_left (j : ℕ) : lineThrough x y j (x.getD j 0) = y.getD j 0 := by simp [lineThrough]

theorem width_pos' (hs : x.Pairwise (· < ·)) {i j : ℕ} (hij : i < j) (hj : j < x.length) : x.getD i 0 < x.getD j 0 := by
  rw [List.getD_eq_getElem _ _ (by omega), List.getD_eq_getElem _ _ hj]
  exact List.pairwise_iff_getElem.mp hs i j _ hj hij

theorem knot_le (hs : x.Pairwise (· < ·)) {i j : ℕ} (hij : i ≤ j) (hj : j < x.length) : x.getD i 0 ≤ x.getD j 0 := by
  rcases Nat.eq_or_lt_of_le hij with h | h
  · rw [h]
  · exact (width_pos' hs h hj).le

theorem lineThrough_right (hs : x.Pairwise (· < ·)) {j : ℕ} (hj : j + 1 < x.length) : lineThrough x y j (x.getD (j + 1) 0) = y.getD (j + 1) 0 := by
  have := width_pos' hs (Nat.lt_succ_self j) hj
  unfold lineThrough
  rw [div_self (by linarith), one_smul]
  abel

/-- the line as a weighted mean -/
theorem lineThrough_eq_slope (j : ℕ) (t : K) : lineThrough x y j t = y.getD j 0 + (t - x.getD j 0) * ((y.getD (j + 1) 0 - y.getD j 0) / (x.getD (j + 1) 0 - x.getD j 0)) := by
  unfold lineThrough
  rw [smul_eq_mul]
  ring

theorem frac_mem (hs : x.Pairwise (· < ·)) {j : ℕ} (hj : j + 1 < x.length) {t : K} (h1 : x.getD j 0 ≤ t) (h2 : t ≤ x.getD (j + 1) 0) :
    0 ≤ (t - x.getD j 0) / (x.getD (j + 1) 0 - x.getD j 0) ∧ (t - x.getD j 0) / (x.getD (j + 1) 0 - x.getD j 0) ≤ 1 := by
  have := width_pos' hs (Nat.lt_succ_self j) hj
  constructor
  · exact div_nonneg (by linarith) (by linarith)
  · rw [div_le_one (by linarith)]; linarith

/-- every point between the first and the last knot is between two neighbouring ones -/
theorem locate (hx : 2 ≤ x.length) {t : K} (h1 : x.getD 0 0 ≤ t) (h2 : t ≤ x.getD (x.length - 1) 0) :
    ∃ j, j + 1 < x.length ∧ x.getD j 0 ≤ t ∧ t ≤ x.getD (j + 1) 0 := by
  have key : ∀ m, m + 1 < x.length → t ≤ x.getD (m + 1) 0 → ∃ j, j + 1 < x.length ∧ x.getD j 0 ≤ t ∧ t ≤ x.getD (j + 1) 0 := by
    intro m
    induction m with
    | zero => intro hm ht; exact ⟨0, hm, h1, ht⟩
    | succ m ih =>
      intro hm ht
      rcases le_total (x.getD (m + 1) 0) t with h | h
      · exact ⟨m + 1, hm, h, ht⟩
      · exact ih (by omega) h
  exact key (x.length - 2) (by omega) (by rwa [show x.length - 2 + 1 = x.length - 1 by omega])

/-- the value between two neighbouring data -/
theorem line_between (hs : x.Pairwise (· < ·)) {j : ℕ} (hj : j + 1 < x.length) {t m M : K} (h1 : x.getD j 0 ≤ t) (h2 : t ≤ x.getD (j + 1) 0)
    (a1 : m ≤ y.getD j 0) (a2 : m ≤ y.getD (j + 1) 0) (b1 : y.getD j 0 ≤ M) (b2 : y.getD (j + 1) 0 ≤ M) :
    m ≤ lineThrough x y j t ∧ lineThrough x y j t ≤ M := by
  obtain ⟨f0, f1⟩ := frac_mem hs hj h1 h2
  unfold lineThrough
  set w := (t - x.getD j 0) / (x.getD (j + 1) 0 - x.getD j 0)
  rw [smul_eq_mul]
  constructor
  · nlinarith [mul_nonneg f0 (sub_nonneg.2 a2), mul_nonneg (sub_nonneg.2 f1) (sub_nonneg.2 a1)]
  · nlinarith [mul_nonneg f0 (sub_nonneg.2 b2), mul_nonneg (sub_nonneg.2 f1) (sub_nonneg.2 b1)]

theorem interp_cases {f : K → K} (hf : IsInterp x y f) (hx : 2 ≤ x.length) (t : K) :
    f t = y.getD 0 0 ∧ t ≤ x.getD 0 0 ∨ f t = y.getD (x.length - 1) 0 ∧ x.getD (x.length - 1) 0 ≤ t ∨
      ∃ j, j + 1 < x.length ∧ x.getD j 0 ≤ t ∧ t ≤ x.getD (j + 1) 0 ∧ f t = lineThrough x y j t := by
  rcases le_total t (x.getD 0 0) with h | h
  · exact .inl ⟨hf.left t h, h⟩
  · rcases le_total (x.getD (x.length - 1) 0) t with h' | h'
    · exact .inr (.inl ⟨hf.right t h', h'⟩)
    · obtain ⟨j, hj, a, b⟩ := locate hx h h'
      exact .inr (.inr ⟨j, hj, a, b, hf.between j hj t a b⟩)

theorem interp_range {f : K → K} (hf : IsInterp x y f) (hs : x.Pairwise (· < ·)) (hx : 2 ≤ x.length) (hy : y.length = x.length) {m M : K}
    (hm : ∀ v ∈ y, m ≤ v ∧ v ≤ M) (t : K) : m ≤ f t ∧ f t ≤ M := by
  have hd : ∀ i, i < x.length → m ≤ y.getD i 0 ∧ y.getD i 0 ≤ M := fun i hi => by
    rw [List.getD_eq_getElem _ _ (by omega)]; exact hm _ (List.getElem_mem _)
  rcases interp_cases hf hx t with ⟨h, -⟩ | ⟨h, -⟩ | ⟨j, hj, h1, h2, h⟩
  · rw [h]; exact hd 0 (by omega)
  · rw [h]; exact hd _ (by omega)
  · rw [h]
    exact line_between hs hj h1 h2 (hd j (by omega)).1 (hd _ hj).1 (hd j (by omega)).2 (hd _ hj).2

theorem mono_getD (hm : y.Pairwise (· ≤ ·)) (hy : y.length = x.length) {i j : ℕ} (hij : i ≤ j) (hj : j < x.length) : y.getD i 0 ≤ y.getD j 0 := by
  rcases Nat.eq_or_lt_of_le hij with h | h
  · rw [h]
  · rw [List.getD_eq_getElem _ _ (by omega), List.getD_eq_getElem _ _ (by omega)]
    exact List.pairwise_iff_getElem.mp hm i j _ (by omega) h

theorem interp_monotone {f : K → K} (hf : IsInterp x y f) (hs : x.Pairwise (· < ·)) (hx : 2 ≤ x.length) (hy : y.length = x.length)
    (hm : y.Pairwise (· ≤ ·)) : Monotone f := by
  have hb : ∀ t, y.getD 0 0 ≤ f t ∧ f t ≤ y.getD (x.length - 1) 0 := interp_range hf hs hx hy fun v hv => by
    obtain ⟨i, hi, rfl⟩ := List.getElem_of_mem hv
    rw [← List.getD_eq_getElem _ 0 hi]
    exact ⟨mono_getD hm hy (Nat.zero_le _) (by omega), mono_getD hm hy (by omega) (by omega)⟩
  have lb : ∀ j, j + 1 < x.length → ∀ t, x.getD j 0 ≤ t → t ≤ x.getD (j + 1) 0 → y.getD j 0 ≤ lineThrough x y j t ∧ lineThrough x y j t ≤ y.getD (j + 1) 0 :=
    fun j hj t h1 h2 => line_between hs hj h1 h2 le_rfl (mono_getD hm hy (Nat.le_succ _) hj) (mono_getD hm hy (Nat.le_succ _) hj) le_rfl
  intro s t hst
  rcases interp_cases hf hx s with ⟨h, -⟩ | ⟨h, hs1⟩ | ⟨i, hi, h1, h2, h⟩
  · rw [h]; exact (hb t).1
  · rw [h, hf.right t (hs1.trans hst)]
  rcases interp_cases hf hx t with ⟨h', ht1⟩ | ⟨h', -⟩ | ⟨j, hj, h1', h2', h'⟩
  · have e : s = t := le_antisymm hst (ht1.trans ((knot_le hs (Nat.zero_le i) (by omega)).trans h1))
    rw [e]
  · rw [h']; exact (hb s).2
  · rcases lt_trichotomy i j with hij | hij | hij
    · rw [h, h']
      exact ((lb i hi s h1 h2).2.trans (mono_getD hm hy (show i + 1 ≤ j by omega) (by omega))).trans (lb j hj t h1' h2').1
    · subst hij
      rw [h, h', lineThrough_eq_slope, lineThrough_eq_slope]
      have : 0 ≤ (y.getD (i + 1) 0 - y.getD i 0) / (x.getD (i + 1) 0 - x.getD i 0) :=
        div_nonneg (sub_nonneg.2 (mono_getD hm hy (Nat.le_succ _) hi)) (sub_nonneg.2 (knot_le hs (Nat.le_succ _) hi))
      have := mul_le_mul_of_nonneg_right (sub_le_sub_right hst (x.getD i 0)) this
      linarith
    · have e : s = t := le_antisymm hst (h2'.trans ((knot_le hs (show j + 1 ≤ i by omega) (by omega)).trans h1))
      rw [e]

/-- the interpolant through the exchanged table is the inverse function -/
theorem interp_inverse {f g : K → K} (hf : IsInterp x y f) (hg : IsInterp y x g) (hs : x.Pairwise (· < ·)) (hm : y.Pairwise (· < ·)) (hx : 2 ≤ x.length)
    (hy : y.length = x.length) {t : K} (h1 : x.getD 0 0 ≤ t) (h2 : t ≤ x.getD (x.length - 1) 0) : g (f t) = t := by
  obtain ⟨j, hj, a, b⟩ := locate hx h1 h2
  have wx := width_pos' hs (Nat.lt_succ_self j) hj
  have wy := width_pos' hm (Nat.lt_succ_self j) (by omega)
  have hl := line_between (y := y) hs hj a b le_rfl wy.le wy.le le_rfl
  rw [hf.between j hj t a b, hg.between j (by omega) _ hl.1 hl.2]
  unfold lineThrough
  rw [smul_eq_mul, smul_eq_mul]
  have : x.getD (j + 1) 0 - x.getD j 0 ≠ 0 := by linarith
  have : y.getD (j + 1) 0 - y.getD j 0 ≠ 0 := by linarith
  field_simp
  ring

/-- the slope of interval `j` -/
def slopeAt (x y : List K) (j : ℕ) : K := (y.getD (j + 1) 0 - y.getD j 0) / (x.getD (j + 1) 0 - x.getD j 0)

theorem lines_le (hs : x.Pairwise (· < ·)) (hc : ∀ j, j + 2 < x.length → slopeAt x y j ≤ slopeAt x y (j + 1)) {i : ℕ} (hi : i + 1 < x.length) {t : K}
    (h1 : x.getD i 0 ≤ t) (h2 : t ≤ x.getD (i + 1) 0) {j : ℕ} (hj : j + 1 < x.length) : lineThrough x y j t ≤ lineThrough x y i t := by
  -- neighbouring lines compared about their common knot
  have nb : ∀ k, k + 2 < x.length → lineThrough x y (k + 1) t - lineThrough x y k t = (t - x.getD (k + 1) 0) * (slopeAt x y (k + 1) - slopeAt x y k) := by
    intro k hk
    have e := lineThrough_right (y := y) hs (j := k) (by omega)
    rw [lineThrough_eq_slope] at e
    rw [lineThrough_eq_slope, lineThrough_eq_slope]
    unfold slopeAt
    linear_combination -e
  rcases le_total j i with hji | hij
  · obtain ⟨d, rfl⟩ := Nat.exists_eq_add_of_le hji
    have : ∀ d', j + d' ≤ j + d → lineThrough x y j t ≤ lineThrough x y (j + d') t := by
      intro d'
      induction d' with
      | zero => intro _; exact le_rfl
      | succ d' ih =>
        intro hd
        refine (ih (by omega)).trans ?_
        have n := nb (j + d') (by omega)
        have a : 0 ≤ t - x.getD (j + d' + 1) 0 := sub_nonneg.2 ((knot_le hs (show j + d' + 1 ≤ j + d by omega) (by omega)).trans h1)
        have := mul_nonneg a (sub_nonneg.2 (hc (j + d') (by omega)))
        rw [← add_assoc]
        linarith
    exact this d le_rfl
  · obtain ⟨d, rfl⟩ := Nat.exists_eq_add_of_le hij
    have : ∀ d', i + d' ≤ i + d → lineThrough x y (i + d') t ≤ lineThrough x y i t := by
      intro d'
      induction d' with
      | zero => intro _; exact le_rfl
      | succ d' ih =>
        intro hd
        refine le_trans ?_ (ih (by omega))
        have n := nb (i + d') (by omega)
        have a : 0 ≤ x.getD (i + d' + 1) 0 - t := sub_nonneg.2 (h2.trans (knot_le hs (show i + 1 ≤ i + d' + 1 by omega) (by omega)))
        have := mul_nonneg a (sub_nonneg.2 (hc (i + d') (by omega)))
        rw [← add_assoc]
        linarith
    exact this d le_rfl

theorem lineThrough_affine (j : ℕ) {a b s t : K} (hab : a + b = 1) : lineThrough x y j (a * s + b * t) = a * lineThrough x y j s + b * lineThrough x y j t := by
  rw [lineThrough_eq_slope, lineThrough_eq_slope, lineThrough_eq_slope]
  have e : b = 1 - a := by linarith
  subst e
  ring

theorem lines_convex {f : K → K} (hs : x.Pairwise (· < ·)) (hx : 2 ≤ x.length)
    (hf : ∀ j, j + 1 < x.length → ∀ t, x.getD j 0 ≤ t → t ≤ x.getD (j + 1) 0 → f t = lineThrough x y j t)
    (hc : ∀ j, j + 2 < x.length → slopeAt x y j ≤ slopeAt x y (j + 1)) : ConvexOn K (Set.Icc (x.getD 0 0) (x.getD (x.length - 1) 0)) f := by
  refine ⟨convex_Icc _ _, ?_⟩
  rintro s ⟨s1, s2⟩ t ⟨t1, t2⟩ a b ha hb hab
  simp only [smul_eq_mul]
  have e0 : x.getD 0 0 = a * x.getD 0 0 + b * x.getD 0 0 := by rw [← add_mul, hab, one_mul]
  have e1 : x.getD (x.length - 1) 0 = a * x.getD (x.length - 1) 0 + b * x.getD (x.length - 1) 0 := by rw [← add_mul, hab, one_mul]
  obtain ⟨j, hj, h1, h2⟩ := locate hx (t := a * s + b * t) (by rw [e0]; exact add_le_add (mul_le_mul_of_nonneg_left s1 ha) (mul_le_mul_of_nonneg_left t1 hb))
    (by rw [e1]; exact add_le_add (mul_le_mul_of_nonneg_left s2 ha) (mul_le_mul_of_nonneg_left t2 hb))
  obtain ⟨i, hi, i1, i2⟩ := locate hx s1 s2
  obtain ⟨k, hk, k1, k2⟩ := locate hx t1 t2
  rw [hf j hj _ h1 h2, hf i hi s i1 i2, hf k hk t k1 k2, lineThrough_affine j hab]
  exact add_le_add (mul_le_mul_of_nonneg_left (lines_le hs hc hi i1 i2 hj) ha) (mul_le_mul_of_nonneg_left (lines_le hs hc hk k1 k2 hj) hb)

variable {inv : InvFun K} {S : Scipy K}

/-- **C104** A polyline (`pline(x, y)`, constant beyond its ends) takes no value outside the range of the data. -/
theorem C104_range (hinv : InvOK inv) (hS : ScipyOK S) (hs : x.Pairwise (· < ·)) (hx : 2 ≤ x.length) (hy : y.length = x.length) :
    ∃ p, pline inv S x y none = .ok (.pw p) ∧ ∀ m M, (∀ v ∈ y, m ≤ v ∧ v ≤ M) → ∀ t, m ≤ p.call t ∧ p.call t ≤ M := by
  obtain ⟨p, h, -, -, -, hi, -⟩ := C30_pline (extrap := none) hinv hS hs hx hy
  exact ⟨p, h, fun m M hm t => interp_range (hi rfl) hs hx hy hm t⟩

/-- **C104** A polyline through nondecreasing data is nondecreasing. -/
theorem C104_monotone (hinv : InvOK inv) (hS : ScipyOK S) (hs : x.Pairwise (· < ·)) (hx : 2 ≤ x.length) (hy : y.length = x.length)
    (hm : y.Pairwise (· ≤ ·)) : ∃ p, pline inv S x y none = .ok (.pw p) ∧ Monotone p.call := by
  obtain ⟨p, h, -, -, -, hi, -⟩ := C30_pline (extrap := none) hinv hS hs hx hy
  exact ⟨p, h, interp_monotone (hi rfl) hs hx hy hm⟩

/-- **C104** The polylines through the points (x, y) and (y, x), both increasing, are inverse functions. -/
theorem C104_inverse (hinv : InvOK inv) (hS : ScipyOK S) (hs : x.Pairwise (· < ·)) (hm : y.Pairwise (· < ·)) (hx : 2 ≤ x.length) (hy : y.length = x.length) :
    ∃ p q, pline inv S x y none = .ok (.pw p) ∧ pline inv S y x none = .ok (.pw q) ∧
      (∀ t, x.getD 0 0 ≤ t → t ≤ x.getD (x.length - 1) 0 → q.call (p.call t) = t) ∧
      (∀ t, y.getD 0 0 ≤ t → t ≤ y.getD (y.length - 1) 0 → p.call (q.call t) = t) := by
  obtain ⟨p, h, -, -, -, hi, -⟩ := C30_pline (extrap := none) hinv hS hs hx hy
  obtain ⟨q, h', -, -, -, hi', -⟩ := C30_pline (extrap := none) hinv hS hm (by omega) hy.symm
  exact ⟨p, q, h, h', fun t a b => interp_inverse (hi rfl) (hi' rfl) hs hm hx hy a b,
    fun t a b => interp_inverse (hi' rfl) (hi rfl) hm hs (by omega) hy.symm a b⟩

/-- **C104** If the slopes of the data do not decrease the polyline is convex between the first and the last point. -/
theorem C104_convex (hinv : InvOK inv) (hS : ScipyOK S) (hs : x.Pairwise (· < ·)) (hx : 2 ≤ x.length) (hy : y.length = x.length) (extrap : Option (ℕ × ℕ))
    (hc : ∀ j, j + 2 < x.length → (y.getD (j + 1) 0 - y.getD j 0) / (x.getD (j + 1) 0 - x.getD j 0) ≤
      (y.getD (j + 2) 0 - y.getD (j + 1) 0) / (x.getD (j + 2) 0 - x.getD (j + 1) 0)) :
    ∃ p, pline inv S x y extrap = .ok (.pw p) ∧ ConvexOn K (Set.Icc (x.getD 0 0) (x.getD (x.length - 1) 0)) p.call := by
  obtain ⟨p, h, -, -, -, -, hb, -⟩ := C30_pline (extrap := extrap) hinv hS hs hx hy
  exact ⟨p, h, lines_convex hs hx hb hc⟩

end

/-- Non-trivial instances: increasing convex data; the polyline and the polyline of the exchanged table. -/
example : ([0, 1, 3] : List ℚ).Pairwise (· < ·) ∧ ([2, 4, 9] : List ℚ).Pairwise (· < ·) ∧ ([2, 4, 9] : List ℚ).Pairwise (· ≤ ·) ∧
    (∀ v ∈ ([2, 4, 9] : List ℚ), 2 ≤ v ∧ v ≤ 9) ∧
    (∀ j, j + 2 < 3 → (([2, 4, 9] : List ℚ).getD (j + 1) 0 - ([2, 4, 9] : List ℚ).getD j 0) / (([0, 1, 3] : List ℚ).getD (j + 1) 0 - ([0, 1, 3] : List ℚ).getD j 0) ≤
      (([2, 4, 9] : List ℚ).getD (j + 2) 0 - ([2, 4, 9] : List ℚ).getD (j + 1) 0) / (([0, 1, 3] : List ℚ).getD (j + 2) 0 - ([0, 1, 3] : List ℚ).getD (j + 1) 0)) ∧
    ((pline (V := ℚ) (adjInv ℚ) (exactScipy ℚ) [0, 1, 3] [2, 4, 9]).bind fun o => [(-5 : ℚ), 1/2, 2, 7].mapM o.at) = .ok [2, 3, 13/2, 9] ∧
    ((pline (V := ℚ) (adjInv ℚ) (exactScipy ℚ) [2, 4, 9] [0, 1, 3]).bind fun o => [(3 : ℚ), 13/2].mapM o.at) = .ok [1/2, 2] := by
  refine ⟨by decide +kernel, by decide +kernel, by decide +kernel, by decide +kernel, ?_, by decide +kernel, by decide +kernel⟩
  intro j hj
  obtain rfl : j = 0 := by omega
  norm_num

example : InvOK (adjInv ℚ) ∧ ScipyOK (exactScipy ℚ) := ⟨adjInv_ok, exactScipy_ok⟩

end Npplus
