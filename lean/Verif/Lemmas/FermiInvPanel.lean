import Verif.Lemmas.PolyExpr
import Verif.Props.FermiAccHi

/-!
# Panels of the Fermi-Dirac integrals as polynomials of `1/x`, and the regions of the inverse functions
-/

set_option linter.unusedSectionVars false
namespace Npplus
open MeasureTheory Set Npplus.Spec Npplus.Fermi

namespace FdInv
open Cheb FdTail

/-! ### `exp` on `[0, 2.05)` -/

/-- `exp x` -/
def polE : List ℚ := [99999999999999475952 / 10 ^ 20, 100000000000100175227 / 10 ^ 20, 49999999996828957515 / 10 ^ 20, 16666666706145480879 / 10 ^ 20,
  4166666410617105214 / 10 ^ 20, 833334326143423033 / 10 ^ 20, 138886401073915273 / 10 ^ 20, 19845487951833193 / 10 ^ 20,
  2475195995211995 / 10 ^ 20, 279661233438138 / 10 ^ 20, 25216505065772 / 10 ^ 20, 3410972477451 / 10 ^ 20,
  -13209796467 / 10 ^ 20, 45548287088 / 10 ^ 20]

theorem polE_cert : posAll (10 ^ 30) 1000000 0 [512500, 1025000, 1537500, 2050000]
    [addQ [2 / 10 ^ 12] (addQ (derQ polE) (polE.map (-1 * ·))),
     addQ [2 / 10 ^ 12] ((addQ (derQ polE) (polE.map (-1 * ·))).map (-1 * ·))] = true := by decide +kernel

theorem polE_spec {x : ℝ} (h0 : 0 ≤ x) (h1 : x < 2.05) :
    1 - 1 / 10 ^ 11 ≤ evQ polE x * Real.exp (-x) ∧ evQ polE x * Real.exp (-x) ≤ 1 + 1 / 10 ^ 11 := by
  have hder : ∀ t ∈ Icc 0 x, HasDerivWithinAt (fun t => evQ polE t * Real.exp (-t))
      ((evQ (derQ polE) t - evQ polE t) * Real.exp (-t)) (Icc 0 x) t := by
    intro t _
    have k1 : HasDerivAt (fun t : ℝ => Real.exp (-t)) (Real.exp (-t) * (-1)) t := (hasDerivAt_neg t).exp
    exact (((hasDerivAt_evQ polE t).mul k1).congr_deriv (by ring)).hasDerivWithinAt
  have hb : ∀ t ∈ Icc 0 x, ‖(evQ (derQ polE) t - evQ polE t) * Real.exp (-t)‖ ≤ 2 / 10 ^ 12 := by
    intro t ht
    have hc := posAll_spec polE_cert (by norm_num) le_rfl (x := t) (by simpa using ht.1)
      (by simp only [List.getLastD]; norm_num at h1 ⊢; linarith [ht.2])
    have c1 := hc _ (List.mem_cons_self ..)
    have c2 := hc _ (List.mem_cons_of_mem _ (List.mem_cons_self ..))
    simp only [evQ_add, evQ_smul, evQ] at c1 c2
    push_cast at c1 c2
    have e1 : Real.exp (-t) ≤ 1 := Real.exp_le_one_iff.2 (by linarith [ht.1])
    have e0 := Real.exp_pos (-t)
    rw [Real.norm_eq_abs, abs_mul, abs_of_pos e0]
    have : |evQ (derQ polE) t - evQ polE t| ≤ 2 / 10 ^ 12 := by rw [abs_le]; constructor <;> linarith
    calc _ ≤ 2 / 10 ^ 12 * 1 := mul_le_mul this e1 e0.le (by norm_num)
      _ = _ := mul_one _
  have := (convex_Icc (0 : ℝ) x).norm_image_sub_le_of_norm_hasDerivWithin_le hder hb (left_mem_Icc.2 h0) (right_mem_Icc.2 h0)
  rw [Real.norm_eq_abs, Real.norm_eq_abs, sub_zero, abs_of_nonneg h0] at this
  have z : |evQ polE 0 * Real.exp (-0) - 1| ≤ 1 / 10 ^ 12 := by
    simp only [polE, evQ]; norm_num [abs_le]
  rw [abs_le] at this z
  norm_num at h1
  constructor <;> linarith

/-! ### panels -/

/-- relative error of the panels -/
noncomputable def e0 : ℝ := 3 / 10 ^ 10

/-- `F(x)` is `x^(q+1/2) b(1/x)` for `s0 ≤ 1/x ≤ s1`. -/
def PanelF (j : ℝ) (q : ℕ) (b : List ℚ) (s0 s1 : ℚ) : Prop := ∀ x : ℝ, 0 < x → (s0 : ℝ) ≤ 1 / x → 1 / x ≤ (s1 : ℝ) →
  (1 - e0) ^ 2 * (x ^ (2 * q + 1) * evQ b (1 / x) ^ 2) ≤ fermiDirac j x ^ 2 ∧
    fermiDirac j x ^ 2 ≤ (1 + e0) ^ 2 * (x ^ (2 * q + 1) * evQ b (1 / x) ^ 2)

/-- The approximation for large x is good from 2 on. -/
def GoodHi (c : Coef) (q : ℕ) (j : ℝ) : Prop := ∀ x : ℝ, 2 ≤ x →
  |Real.sqrt x * x ^ q * decPoly c.bnum (1 / x ^ 2) / decPoly c.bden (1 / x ^ 2) - fermiDirac j x| ≤ 3 / 10 ^ 12 * fermiDirac j x

/-- combination of two errors -/
theorem sq_combine {G F B a e : ℝ} (hG : 0 ≤ G) (hF : 0 ≤ F) (ha : 0 ≤ a) (ha1 : a ≤ 5 / 10 ^ 11) (he : e = 2 / 10 ^ 10)
    (h1 : (1 - a) * F ≤ G) (h2 : G ≤ (1 + a) * F)
    (h3 : (1 - e) ^ 2 * B ≤ G ^ 2) (h4 : G ^ 2 ≤ (1 + e) ^ 2 * B) : (1 - e0) ^ 2 * B ≤ F ^ 2 ∧ F ^ 2 ≤ (1 + e0) ^ 2 * B := by
  have hB : 0 ≤ B := by
    have : 0 ≤ (1 + e) ^ 2 * B := le_trans (sq_nonneg _) h4
    exact nonneg_of_mul_nonneg_right this (by rw [he]; positivity)
  have hsB : Real.sqrt B * Real.sqrt B = B := Real.mul_self_sqrt hB
  have hs0 := Real.sqrt_nonneg B
  set t := Real.sqrt B
  have g1 : (1 - e) * t ≤ G := by
    apply abs_le_of_sq_le_sq' _ hG |>.2
    calc ((1 - e) * t) ^ 2 = (1 - e) ^ 2 * (t * t) := by ring
      _ ≤ _ := by rw [hsB]; exact h3
  have g2 : G ≤ (1 + e) * t := by
    apply abs_le_of_sq_le_sq' _ (by rw [he]; positivity) |>.2
    calc _ ≤ _ := h4
      _ = _ := by rw [← hsB]; ring
  have k1 : (1 - e0) * t ≤ F := by
    have : (1 + a) * ((1 - e0) * t) ≤ (1 + a) * F := by
      refine le_trans ?_ (g1.trans h2)
      rw [← mul_assoc]
      apply mul_le_mul_of_nonneg_right _ hs0
      rw [he, e0]; nlinarith
    exact le_of_mul_le_mul_left this (by linarith)
  have k2 : F ≤ (1 + e0) * t := by
    have : (1 - a) * F ≤ (1 - a) * ((1 + e0) * t) := by
      refine (h1.trans g2).trans ?_
      rw [← mul_assoc]
      apply mul_le_mul_of_nonneg_right _ hs0
      rw [he, e0]; nlinarith
    exact le_of_mul_le_mul_left this (by linarith)
  constructor
  · calc (1 - e0) ^ 2 * B = ((1 - e0) * t) ^ 2 := by rw [← hsB]; ring
      _ ≤ _ := pow_le_pow_left₀ (mul_nonneg (by norm_num [e0]) hs0) k1 2
  · calc F ^ 2 ≤ ((1 + e0) * t) ^ 2 := pow_le_pow_left₀ hF k2 2
      _ = _ := by rw [← hsB]; ring

/-- certificate of a panel with x ≥ 2 -/
def hiChk (c : Coef) (sgn : ℚ) (b : List ℚ) (s0 s1 : ℚ) (a : ℤ) (pts : List ℤ) : Bool :=
  decide (0 ≤ a) && decide ((a : ℚ) / 1000000 ≤ s0) && decide (s1 < (pts.getLastD a : ℤ) / 1000000) && decide (s1 ≤ 1 / 2) &&
  posAll (10 ^ 60) 1000000 a pts [(sqQ c.bden.reverse).map (sgn * ·),
    addQ (mulQ ((sqQ c.bden.reverse).map (sgn * ·)) (b.map ((1 + 2 / 10 ^ 10) * ·))) ((sqQ c.bnum.reverse).map (-sgn * ·)),
    addQ ((sqQ c.bnum.reverse).map (sgn * ·)) (mulQ ((sqQ c.bden.reverse).map (sgn * ·)) (b.map (-(1 - 2 / 10 ^ 10) * ·)))]

theorem panelHi {c : Coef} {q : ℕ} {j : ℝ} (hg : GoodHi c q j) {sgn s0 s1 : ℚ} {b : List ℚ} {a : ℤ} {pts : List ℤ}
    (hc : hiChk c sgn b s0 s1 a pts = true) : PanelF j q b s0 s1 := by
  simp only [hiChk, Bool.and_eq_true, decide_eq_true_eq] at hc
  obtain ⟨⟨⟨⟨ha, h0⟩, h1⟩, h2⟩, hc⟩ := hc
  intro x hx k1 k2
  have h0' : ((a : ℤ) : ℝ) / ((1000000 : ℤ) : ℝ) ≤ 1 / x := by
    refine le_trans ?_ k1
    exact_mod_cast h0
  have h1' : 1 / x < ((pts.getLastD a : ℤ) : ℝ) / ((1000000 : ℤ) : ℝ) := by
    refine lt_of_le_of_lt k2 ?_
    have := (Rat.cast_lt (K := ℝ)).2 h1
    push_cast at this ⊢
    exact this
  have hx2 : 2 ≤ x := by
    have : 1 / x ≤ 1 / 2 := k2.trans (by have := (Rat.cast_le (K := ℝ)).2 h2; push_cast at this; exact this)
    rwa [one_div_le_one_div hx (by norm_num)] at this
  have hp := posAll_spec hc (by norm_num) ha h0' h1'
  have c1 := hp _ (List.mem_cons_self ..)
  have c2 := hp _ (List.mem_cons_of_mem _ (List.mem_cons_self ..))
  have c3 := hp _ (List.mem_cons_of_mem _ (List.mem_cons_of_mem _ (List.mem_cons_self ..)))
  simp only [evQ_add, evQ_smul, evQ_mul, evQ_sqQ, evQ_reverse] at c1 c2 c3
  push_cast at c2 c3
  rw [one_div_pow] at c1 c2 c3
  have hgx := hg x hx2
  set N := decPoly c.bnum (1 / x ^ 2)
  set Dn := decPoly c.bden (1 / x ^ 2)
  set B := evQ b (1 / x)
  have hD : Dn ≠ 0 := by rintro hz; rw [hz] at c1; simp at c1
  have hsg : (sgn : ℝ) ≠ 0 := by rintro hz; rw [hz] at c1; simp at c1
  have hR : N / Dn = (sgn * N) / (sgn * Dn) := by field_simp
  have r1 : (1 - 2 / 10 ^ 10) * B ≤ N / Dn := by rw [hR, le_div_iff₀ c1]; linarith
  have r2 : N / Dn ≤ (1 + 2 / 10 ^ 10) * B := by rw [hR, div_le_iff₀ c1]; linarith
  have hB : 0 ≤ B := by linarith
  rw [mul_div_assoc] at hgx
  set R := N / Dn
  have hR0 : 0 ≤ R := le_trans (by positivity) r1
  have hF := F_nonneg j x
  have hW : 0 ≤ Real.sqrt x * x ^ q := by positivity
  have hWW : (Real.sqrt x * x ^ q) ^ 2 = x ^ (2 * q + 1) := by
    rw [mul_pow, Real.sq_sqrt hx.le]; ring
  refine sq_combine (G := Real.sqrt x * x ^ q * R) (a := 3 / 10 ^ 12) (e := 2 / 10 ^ 10) (mul_nonneg hW hR0) hF (by norm_num) (by norm_num) rfl
    (by have := (abs_le.1 hgx).1; linarith) (by have := (abs_le.1 hgx).2; linarith) ?_ ?_
  · rw [mul_pow, hWW]
    have : ((1 - 2 / 10 ^ 10) * B) ^ 2 ≤ R ^ 2 := pow_le_pow_left₀ (by positivity) r1 2
    calc _ = x ^ (2 * q + 1) * ((1 - 2 / 10 ^ 10) * B) ^ 2 := by ring
      _ ≤ _ := mul_le_mul_of_nonneg_left this (by positivity)
  · rw [mul_pow, hWW]
    have : R ^ 2 ≤ ((1 + 2 / 10 ^ 10) * B) ^ 2 := pow_le_pow_left₀ hR0 r2 2
    calc _ ≤ x ^ (2 * q + 1) * ((1 + 2 / 10 ^ 10) * B) ^ 2 := mul_le_mul_of_nonneg_left this (by positivity)
      _ = _ := by ring

/-- certificate of a panel with small x; `k + 2q + 1 = 2 deg b` -/
def loChk (c : Coef) (q k : ℕ) (b : List ℚ) (s0 s1 : ℚ) (a : ℕ) (pts : List ℕ) : Bool :=
  let Dd := PE.pow (.mul (.lit b.reverse) (.sub (.lit polE) (.lit [1]) c.aden.reverse)) 2
  let Nn := PE.mul (.lit (List.replicate k 0 ++ [1])) (.pow (.mul (.lit polE) (.sub (.lit polE) (.lit [1]) c.anum.reverse)) 2)
  decide (0 < s0) && decide (0 < s1) && decide ((a : ℚ) / 1000000 * s1 ≤ 1) &&
  decide (1 < s0 * ((pts.getLastD a : ℕ) / 1000000)) && decide (20 < 41 * s0) && decide (k + 2 * q + 1 + 2 = 2 * b.length) &&
  posE (10 ^ 60) 1000000 a pts [.lit (addQ [74 / 10] (polE.map (-1 * ·))),
    .add (.smul ((1 + 2 / 10 ^ 10) ^ 2) Dd) (.smul (-1) Nn), .add Nn (.smul (-(1 - 2 / 10 ^ 10) ^ 2) Dd)]

theorem evQ_rev_inv (b : List ℚ) {x : ℝ} (hx : x ≠ 0) {n : ℕ} (hb : b.length = n + 1) : evQ b.reverse x = x ^ n * evQ b (1 / x) := by
  have : ∀ b : List ℚ, evQ b.reverse x * x = x ^ b.length * evQ b (1 / x) := by
    intro b
    induction b with
    | nil => simp [evQ]
    | cons a b ih =>
      rw [List.reverse_cons, evQ_append, add_mul, ih, List.length_reverse, List.length_cons, evQ]
      field_simp
      ring
  have := this b
  rw [hb, pow_succ] at this
  apply mul_right_cancel₀ hx
  linarith

theorem panelLo {c : Coef} {q k : ℕ} {j : ℝ} (hj : -1 < j) (hpos : ∀ z : ℝ, 0 < z → 0 < decPoly c.anum z ∧ 0 < decPoly c.aden z)
    (hg : GoodLo c j) {s0 s1 : ℚ} {b : List ℚ} {a : ℕ} {pts : List ℕ}
    (hc : loChk c q k b s0 s1 a pts = true) : PanelF j q b s0 s1 := by
  simp only [loChk, Bool.and_eq_true, decide_eq_true_eq] at hc
  obtain ⟨⟨⟨⟨⟨⟨h0, h1⟩, h2⟩, h3⟩, h4⟩, h5⟩, hc⟩ := hc
  intro x hx k1 k2
  have h0r : (0 : ℝ) < s0 := by exact_mod_cast h0
  have h1r : (0 : ℝ) < s1 := by exact_mod_cast h1
  have h2r : ((a : ℕ) : ℝ) / 1000000 * s1 ≤ 1 := by
    have := (Rat.cast_le (K := ℝ)).2 h2
    push_cast at this
    exact this
  have h3r : (1 : ℝ) < s0 * (((pts.getLastD a : ℕ) : ℝ) / 1000000) := by
    have := (Rat.cast_lt (K := ℝ)).2 h3
    push_cast at this ⊢
    exact this
  have h4r : (20 : ℝ) < 41 * s0 := by exact_mod_cast h4
  have m1 : (s0 : ℝ) * x ≤ 1 := by rwa [le_div_iff₀ hx] at k1
  have m2 : 1 ≤ (s1 : ℝ) * x := by rwa [div_le_iff₀ hx] at k2
  have l1 : ((a : ℕ) : ℝ) / ((1000000 : ℕ) : ℝ) ≤ x := by
    push_cast
    by_contra hlt
    push Not at hlt
    nlinarith
  have l2 : x < ((pts.getLastD a : ℕ) : ℝ) / ((1000000 : ℕ) : ℝ) := by
    push_cast
    by_contra hlt
    push Not at hlt
    nlinarith
  have hx2 : x < 2.05 := by
    norm_num
    by_contra hlt
    push Not at hlt
    nlinarith
  have hp := posE_spec hc (by norm_num) l1 l2
  have c1 := hp _ (List.mem_cons_self ..)
  have c2 := hp _ (List.mem_cons_of_mem _ (List.mem_cons_self ..))
  have c3 := hp _ (List.mem_cons_of_mem _ (List.mem_cons_of_mem _ (List.mem_cons_self ..)))
  obtain ⟨n, hn⟩ : ∃ n, b.length = n + 1 := ⟨b.length - 1, by omega⟩
  have hk : k + (2 * q + 1) = 2 * n := by omega
  simp only [PE.toQ, evQ_add, evQ_smul, evQ_mul, evQ_pow, evQ_append, evQ_replicate, evQ_comp, evQ_reverse, List.length_replicate, evQ_rev_inv b hx.ne' hn]
    at c1 c2 c3
  simp only [evQ] at c1
  push_cast at c1 c2 c3
  obtain ⟨e1, e2⟩ := polE_spec hx.le hx2
  set E := evQ polE x
  have hE0 : 0 < E := by
    have h := Real.exp_pos (-x)
    have : 0 < E * Real.exp (-x) := lt_of_lt_of_le (by norm_num) e1
    exact pos_of_mul_pos_left this h.le
  have hlog : Real.exp (Real.log E - x) = E * Real.exp (-x) := by
    rw [sub_eq_add_neg, Real.exp_add, Real.exp_log hE0]
  obtain ⟨n1, n2⟩ := near hj (x := x) (x' := Real.log E) (κ := 1 / 10 ^ 11) (by rw [hlog]; exact e1) (by rw [hlog]; exact e2)
  have hgx := hg (Real.log E) (by rw [Real.exp_log hE0]; norm_num at c1 ⊢; linarith)
  rw [Real.exp_log hE0] at hgx
  obtain ⟨p1, p2⟩ := hpos E hE0
  set N := decPoly c.anum E
  set Dn := decPoly c.aden E
  set B := evQ b (1 / x)
  set F := fermiDirac j x
  set F' := fermiDirac j (Real.log E)
  have hF := F_nonneg j x
  have hF' := F_nonneg j (Real.log E)
  have hxk : 0 < x ^ k := by positivity
  have hDD : 0 < Dn ^ 2 := by positivity
  have hsplit : (x ^ n) ^ 2 = x ^ k * x ^ (2 * q + 1) := by rw [← pow_add, hk]; ring
  have g1 := abs_le.1 hgx
  refine sq_combine (G := E * N / Dn) (a := 2 / 10 ^ 11) (e := 2 / 10 ^ 10) (by positivity) hF (by norm_num) (by norm_num) rfl
    ?_ ?_ ?_ ?_
  · have : (1 - 1 / 10 ^ 12) * ((1 - 1 / 10 ^ 11) * F) ≤ (1 - 1 / 10 ^ 12) * F' := mul_le_mul_of_nonneg_left n1 (by norm_num)
    nlinarith [g1.1]
  · have : (1 + 1 / 10 ^ 12) * F' ≤ (1 + 1 / 10 ^ 12) * ((1 + 1 / 10 ^ 11) * F) := mul_le_mul_of_nonneg_left n2 (by norm_num)
    nlinarith [g1.2]
  · rw [div_pow, le_div_iff₀ hDD]
    apply le_of_mul_le_mul_left _ hxk
    have : (x ^ n * B * Dn) ^ 2 = x ^ k * (x ^ (2 * q + 1) * B ^ 2 * Dn ^ 2) := by rw [mul_pow, mul_pow, hsplit]; ring
    rw [this] at c3
    linarith
  · rw [div_pow, div_le_iff₀ hDD]
    apply le_of_mul_le_mul_left _ hxk
    have : (x ^ n * B * Dn) ^ 2 = x ^ k * (x ^ (2 * q + 1) * B ^ 2 * Dn ^ 2) := by rw [mul_pow, mul_pow, hsplit]; ring
    rw [this] at c2
    linarith

end FdInv
end Npplus
