import Verif.Lemmas.HermiteError
import Verif.Lemmas.Calculus
import Verif.Props.PwInit
import Verif.Props.Pline
import Mathlib.Analysis.SpecialFunctions.ExpDeriv
import Mathlib.Analysis.Complex.ExponentialBounds

/-!
# Property C100: how well the interpolating functions approximate
-/

set_option linter.unusedSectionVars false
namespace Npplus
open Spec Set

theorem Spec.Derivs.mono {m : ℕ} {F : ℕ → ℝ → ℝ} {a b a' b' : ℝ} (h : Derivs m F a b) (ha : a ≤ a') (hb : b' ≤ b) : Derivs m F a' b' :=
  ⟨fun k hk => (h.cont k hk).mono (Icc_subset_Icc ha hb), fun k hk x hx => h.deriv k hk x (Ioo_subset_Ioo ha hb hx)⟩

theorem sorted_le {xk : List ℝ} (hs : xk.Pairwise (· < ·)) {i j : ℕ} (hij : i ≤ j) (hj : j < xk.length) : xk.getD i 0 ≤ xk.getD j 0 := by
  rw [List.getD_eq_getElem _ _ (by omega), List.getD_eq_getElem _ _ hj]
  rcases Nat.eq_or_lt_of_le hij with rfl | h
  · exact le_rfl
  · exact (List.pairwise_iff_getElem.1 hs i j (by omega) hj h).le

theorem sorted_lt {xk : List ℝ} (hs : xk.Pairwise (· < ·)) {i j : ℕ} (hij : i < j) (hj : j < xk.length) : xk.getD i 0 < xk.getD j 0 := by
  rw [List.getD_eq_getElem _ _ (by omega), List.getD_eq_getElem _ _ hj]
  exact List.pairwise_iff_getElem.1 hs i j (by omega) hj hij

/-- between two knots -/
theorem inPiece_between {xk : List ℝ} (hs : xk.Pairwise (· < ·)) {i : ℕ} (hi : i + 1 < xk.length) {x : ℝ} (h1 : xk.getD i 0 < x)
    (h2 : x ≤ xk.getD (i + 1) 0) : InPiece xk (i + 1) x := by
  refine ⟨by omega, fun j hj hji => ?_, fun j hj hij => ?_⟩
  · rw [← List.getD_eq_getElem _ 0 hj]
    exact lt_of_le_of_lt (sorted_le hs (by omega) (by omega)) h1
  · rw [← List.getD_eq_getElem _ 0 hj]
    exact h2.trans (sorted_le hs hij hj)

theorem interp_remainder {p : PwPoly ℝ ℝ} (hp : WF p) {n : ℕ} (hn : 1 ≤ n) (hpn : p.n ≤ 2 * n) {F : ℕ → ℝ → ℝ}
    (hF : Derivs (2 * n) F (p.xk.getD 0 0) (p.xk.getD (p.xk.length - 1) 0))
    (hd : ∀ j < p.xk.length, ∀ k < n, pieceDeriv p j (p.xk.getD j 0) k = F k (p.xk.getD j 0) ∧
      pieceDeriv p (j + 1) (p.xk.getD j 0) k = F k (p.xk.getD j 0)) {i : ℕ} (hi : i + 1 < p.xk.length) {x : ℝ}
    (hx : x ∈ Icc (p.xk.getD i 0) (p.xk.getD (i + 1) 0)) :
    ∃ ξ ∈ Ioo (p.xk.getD i 0) (p.xk.getD (i + 1) 0), F 0 x - p.call x =
      F (2 * n) ξ / (2 * n).factorial * ((x - p.xk.getD i 0) * (x - p.xk.getD (i + 1) 0)) ^ n := by
  have hF' : Derivs (2 * n) F (p.xk.getD i 0) (p.xk.getD (i + 1) 0) :=
    hF.mono (sorted_le hp.inc (Nat.zero_le _) (by omega)) (sorted_le hp.inc (by omega) (by omega))
  obtain ⟨ξ, hξ, h⟩ := hermite_remainder (P := fun k t => pieceDeriv p (i + 1) t k) (sorted_lt hp.inc (Nat.lt_succ_self i) hi) hF'
    (fun k t => pieceDeriv_hasDerivAt p (i + 1) t k)
    (fun t => PwPoly.polyDeriv_eq_zero _ _ _ (by
      have : (piece p (i + 1)).length = p.n := hp.piece_length (i := i + 1) (by omega)
      omega))
    (fun k hk => (hd i (by omega) k hk).2) (fun k hk => (hd (i + 1) hi k hk).1) hn hx
  refine ⟨ξ, hξ, ?_⟩
  rw [← h]
  congr 1
  rcases eq_or_lt_of_le hx.1 with e | hlt
  · subst e
    have hin : InPiece p.xk i (p.xk.getD i 0) := by
      rw [List.getD_eq_getElem _ _ (by omega)]
      exact inPiece_knot hp.inc (by omega)
    rw [call_eq_piece hp hin, (hd i (by omega) 0 hn).1]
    exact ((hd i (by omega) 0 hn).2).symm
  · rw [call_eq_piece hp (inPiece_between hp.inc hi hlt hx.2)]

theorem exists_interval {xk : List ℝ} (hs : xk.Pairwise (· < ·)) (hx2 : 2 ≤ xk.length) {x : ℝ}
    (hx : x ∈ Icc (xk.getD 0 0) (xk.getD (xk.length - 1) 0)) : ∃ i, i + 1 < xk.length ∧ x ∈ Icc (xk.getD i 0) (xk.getD (i + 1) 0) := by
  obtain ⟨i, hin, _⟩ := existsUnique_inPiece hs x
  rcases Nat.eq_zero_or_pos i with h0 | h0
  · refine ⟨0, by omega, hx.1, ?_⟩
    have := hin.2.2 1 (by omega) (by omega)
    rwa [← List.getD_eq_getElem _ 0 (by omega)] at this
  · have hil : i < xk.length := by
      by_contra hc
      have := hin.2.1 (xk.length - 1) (by omega) (by omega)
      rw [← List.getD_eq_getElem _ 0 (by omega)] at this
      exact absurd hx.2 (not_le.2 this)
    refine ⟨i - 1, by omega, ?_, ?_⟩
    · have := hin.2.1 (i - 1) (by omega) (by omega)
      rw [← List.getD_eq_getElem _ 0 (by omega)] at this
      exact this.le
    · have := hin.2.2 i hil le_rfl
      rw [← List.getD_eq_getElem _ 0 (by omega)] at this
      rwa [Nat.sub_add_cancel h0]

theorem remainder_bound {xk : List ℝ} (hs : xk.Pairwise (· < ·)) {n : ℕ} (hn : 1 ≤ n) {F : ℕ → ℝ → ℝ} {M h v : ℝ}
    (hM : ∀ t ∈ Ioo (xk.getD 0 0) (xk.getD (xk.length - 1) 0), |F (2 * n) t| ≤ M)
    (hh : ∀ i, i + 1 < xk.length → xk.getD (i + 1) 0 - xk.getD i 0 ≤ h) {i : ℕ} (hi : i + 1 < xk.length) {x : ℝ}
    (hxi : x ∈ Icc (xk.getD i 0) (xk.getD (i + 1) 0)) {ξ : ℝ} (hξ : ξ ∈ Ioo (xk.getD i 0) (xk.getD (i + 1) 0))
    (e : F 0 x - v = F (2 * n) ξ / (2 * n).factorial * ((x - xk.getD i 0) * (x - xk.getD (i + 1) 0)) ^ n) :
    |F 0 x - v| ≤ M * (h / 2) ^ (2 * n) / (2 * n).factorial := by
  have hξ' : |F (2 * n) ξ| ≤ M := hM ξ ⟨lt_of_le_of_lt (sorted_le hs (Nat.zero_le _) (by omega)) hξ.1,
    lt_of_lt_of_le hξ.2 (sorted_le hs (by omega) (by omega))⟩
  have hf : (0 : ℝ) < (2 * n).factorial := by exact_mod_cast Nat.factorial_pos _
  have hnode := node_bound hxi n
  have hw : 0 ≤ (xk.getD (i + 1) 0 - xk.getD i 0) / 2 := by linarith [hxi.1, hxi.2]
  have hpow : ((xk.getD (i + 1) 0 - xk.getD i 0) / 2) ^ (2 * n) ≤ (h / 2) ^ (2 * n) :=
    pow_le_pow_left₀ hw (by linarith [hh i hi]) _
  rw [e, abs_mul, abs_div, abs_of_pos hf, div_mul_eq_mul_div, div_le_div_iff_of_pos_right hf]
  exact mul_le_mul hξ' (hnode.trans hpow) (abs_nonneg _) ((abs_nonneg _).trans hξ')

/-- **C100** — the error of Hermite interpolation: `f` with `2n` derivatives, and `p = PwPoly(xk, f(xk), f'(xk), ..., f^(n-1)(xk))`; in the
interval `i` the difference `f(x) - p(x)` is `f^(2n)(ξ)/(2n)! (x - xk[i])^n (x - xk[i+1])^n` for some `ξ` in the interval. -/
theorem C100_hermite_error {inv : InvFun ℝ} (hinv : InvOK inv) {xk : List ℝ} (hs : xk.Pairwise (· < ·)) (hx2 : 2 ≤ xk.length) {n : ℕ} (hn : 1 ≤ n)
    {F : ℕ → ℝ → ℝ} (hF : Derivs (2 * n) F (xk.getD 0 0) (xk.getD (xk.length - 1) 0)) {p : PwPoly ℝ ℝ}
    (hp : PwPoly.init inv xk ((List.range n).map fun k => xk.map (F k)) = .ok p) {i : ℕ} (hi : i + 1 < xk.length) {x : ℝ}
    (hx : x ∈ Icc (xk.getD i 0) (xk.getD (i + 1) 0)) :
    ∃ ξ ∈ Ioo (xk.getD i 0) (xk.getD (i + 1) 0),
      F 0 x - p.call x = F (2 * n) ξ / (2 * n).factorial * ((x - xk.getD i 0) * (x - xk.getD (i + 1) 0)) ^ n := by
  obtain ⟨q, hq, hwf, hxk, hqn, hd⟩ := C05_hermite hinv hs hx2 (args := (List.range n).map fun k => xk.map (F k))
    (by simp only [ne_eq, List.map_eq_nil_iff, List.range_eq_nil]; omega) (by simp)
  rw [hp] at hq
  cases hq
  subst hxk
  refine interp_remainder hwf hn (by rw [hqn]; simp) hF (fun j hj k hk => ?_) hi hx
  obtain ⟨h1, h2⟩ := hd j hj k (by simpa using hk)
  have e : (((List.range n).map fun k => p.xk.map (F k)).getD k []).getD j 0 = F k (p.xk.getD j 0) := by
    have e1 : ((List.range n).map fun k => p.xk.map (F k)).getD k [] = p.xk.map (F k) := by
      rw [List.getD_eq_getElem _ _ (by simpa using hk), List.getElem_map, List.getElem_range]
    rw [e1, List.getD_eq_getElem _ _ (by simpa using hj), List.getElem_map, List.getD_eq_getElem _ _ hj]
  rw [h1, h2, e]
  exact ⟨rfl, rfl⟩

/-- **C100**, the bound: if `|f^(2n)| ≤ M`, the error is at most `M (h/2)^(2n)/(2n)!` for intervals of width at most `h`: with the function
values alone `M h²/8`, with the first derivative `M h⁴/384`, with two derivatives `M h⁶/46080`. -/
theorem C100_hermite_bound {inv : InvFun ℝ} (hinv : InvOK inv) {xk : List ℝ} (hs : xk.Pairwise (· < ·)) (hx2 : 2 ≤ xk.length) {n : ℕ} (hn : 1 ≤ n)
    {F : ℕ → ℝ → ℝ} (hF : Derivs (2 * n) F (xk.getD 0 0) (xk.getD (xk.length - 1) 0)) {M h : ℝ}
    (hM : ∀ t ∈ Ioo (xk.getD 0 0) (xk.getD (xk.length - 1) 0), |F (2 * n) t| ≤ M)
    (hh : ∀ i, i + 1 < xk.length → xk.getD (i + 1) 0 - xk.getD i 0 ≤ h) {p : PwPoly ℝ ℝ}
    (hp : PwPoly.init inv xk ((List.range n).map fun k => xk.map (F k)) = .ok p) {x : ℝ}
    (hx : x ∈ Icc (xk.getD 0 0) (xk.getD (xk.length - 1) 0)) :
    |F 0 x - p.call x| ≤ M * (h / 2) ^ (2 * n) / (2 * n).factorial := by
  obtain ⟨i, hi, hxi⟩ := exists_interval hs hx2 hx
  obtain ⟨ξ, hξ, e⟩ := C100_hermite_error hinv hs hx2 hn hF hp hi hxi
  exact remainder_bound hs hn hM hh hi hxi hξ e

/-- **C100** for `pline`: the polyline through points of a function with two derivatives, `|f''| ≤ M`, intervals of width at most `h`, is
within `M h²/8` of the function. -/
theorem C100_pline_bound {inv : InvFun ℝ} (hinv : InvOK inv) {S : Scipy ℝ} (hS : ScipyOK S) {xk : List ℝ} (hs : xk.Pairwise (· < ·))
    (hx2 : 2 ≤ xk.length) {extrap : Option (ℕ × ℕ)} {F : ℕ → ℝ → ℝ} (hF : Derivs 2 F (xk.getD 0 0) (xk.getD (xk.length - 1) 0)) {M h : ℝ}
    (hM : ∀ t ∈ Ioo (xk.getD 0 0) (xk.getD (xk.length - 1) 0), |F 2 t| ≤ M)
    (hh : ∀ i, i + 1 < xk.length → xk.getD (i + 1) 0 - xk.getD i 0 ≤ h) :
    ∃ p, pline inv S xk (xk.map (F 0)) extrap = .ok (.pw p) ∧
      ∀ x ∈ Icc (xk.getD 0 0) (xk.getD (xk.length - 1) 0), |F 0 x - p.call x| ≤ M * h ^ 2 / 8 := by
  obtain ⟨p, hp, hwf, hxk, hdeg, -⟩ := C30_pline (inv := inv) (S := S) (y := xk.map (F 0)) (extrap := extrap) hinv hS hs hx2 (by simp)
  refine ⟨p, hp, fun x hx => ?_⟩
  unfold pline at hp
  obtain ⟨-, -, -, hcall, hcont, -⟩ := C24_spline hinv hS hs hp
  subst hxk
  obtain ⟨i, hi, hxi⟩ := exists_interval hs hx2 hx
  have hpn : p.n ≤ 2 * 1 := by
    have : p.n - 1 = 1 := hdeg
    omega
  obtain ⟨ξ, hξ, e⟩ := interp_remainder hwf (n := 1) le_rfl hpn (F := F) hF (fun j hj k hk => by
    have hk0 : k = 0 := by omega
    subst hk0
    have h1 : pieceDeriv p j (p.xk.getD j 0) 0 = F 0 (p.xk.getD j 0) := by
      rw [List.getD_eq_getElem _ _ hj, ← call_eq_piece hwf (inPiece_knot hs hj), hcall j hj,
        List.getD_eq_getElem _ _ (by simpa using hj), List.getElem_map]
    exact ⟨h1, (hcont j hj).symm.trans h1⟩) hi hxi
  have := remainder_bound hs le_rfl hM hh hi hxi hξ e
  refine this.trans (le_of_eq ?_)
  norm_num [Nat.factorial]
  ring

/-- the hypotheses: the exponential function on [0, 1] -/
example : Derivs 4 (fun _ => Real.exp) 0 1 :=
  ⟨fun _ _ => Real.continuous_exp.continuousOn, fun _ _ x _ => Real.hasDerivAt_exp x⟩

/-- cubic interpolation of the exponential function, with its derivatives, at 0, 1/2 and 1: the error is below 3/6144 (in fact
e/6144) -/
example {inv : InvFun ℝ} (hinv : InvOK inv) {p : PwPoly ℝ ℝ}
    (hp : PwPoly.init inv [0, 1/2, 1] ((List.range 2).map fun _ => [0, 1/2, 1].map Real.exp) = .ok p) {x : ℝ} (hx : x ∈ Icc (0 : ℝ) 1) :
    |Real.exp x - p.call x| ≤ 3 / 6144 := by
  have h := C100_hermite_bound hinv (xk := [0, 1/2, 1]) (by norm_num) (by simp) (n := 2) (by norm_num) (F := fun _ => Real.exp) (M := 3) (h := 1/2)
    ⟨fun _ _ => Real.continuous_exp.continuousOn, fun _ _ x _ => Real.hasDerivAt_exp x⟩
    (fun t ht => by
      rw [abs_of_pos (Real.exp_pos t)]
      have : Real.exp t ≤ Real.exp 1 := Real.exp_le_exp.2 (by simpa using ht.2.le)
      exact this.trans (Real.exp_one_lt_d9.le.trans (by norm_num)))
    (fun i hi => by
      have hi' : i + 1 < 3 := hi
      have hi'' : i < 2 := by omega
      interval_cases i <;> norm_num)
    hp (x := x) (by simpa using hx)
  refine h.trans (le_of_eq ?_)
  norm_num [Nat.factorial]

end Npplus
