import Verif.Lemmas.FermiInvPanel

/-!
# The three regions of the inverse functions
-/

set_option linter.unusedSectionVars false
namespace Npplus
open MeasureTheory Set Npplus.Spec Npplus.Fermi

namespace FdInv
open Cheb FdTail

/-! ### y < 4 and x below about 2 -/

def pad8 (c : List ℚ) : List ℚ := c ++ List.replicate (8 - c.length) 0

def firstChk (c ic : Coef) (sgn ε : ℚ) (yb : ℕ) : Bool :=
  let A := PE.lit (ic.anum.reverse.map (sgn * ·))
  let B := PE.lit (ic.aden.reverse.map (sgn * ·))
  let N := PE.mul A (.sub (.xmul A) B (pad8 c.anum.reverse))
  let D := PE.mul B (.sub (.xmul A) B (pad8 c.aden.reverse))
  decide ((pad8 c.anum.reverse).length = 8) && decide ((pad8 c.aden.reverse).length = 8) &&
  posE (10 ^ 60) 1000000 0 [yb] [A, B, .add (.smul (74 / 10) B) (.smul (-1) (.xmul A)),
    .add (.smul (1 + ε) D) (.smul (-1) N), .add N (.smul (-(1 - ε)) D)]

theorem first {c ic : Coef} {j : ℝ} (hg : GoodLo c j) (hpos : ∀ z : ℝ, 0 < z → 0 < decPoly c.anum z ∧ 0 < decPoly c.aden z)
    {sgn ε : ℚ} {yb : ℕ} (hc : firstChk c ic sgn ε yb = true) (hε : 0 ≤ ε) (hε1 : ε ≤ 1) {y : ℝ} (hy : 0 < y) (hyb : y < (yb : ℝ) / 1000000) :
    |fermiDirac j (Real.log (y * decPoly ic.anum y / decPoly ic.aden y)) - y| ≤ ((ε : ℝ) + 1 / 10 ^ 11) * y := by
  simp only [firstChk, Bool.and_eq_true, decide_eq_true_eq] at hc
  obtain ⟨⟨l1, l2⟩, hc⟩ := hc
  have hp := posE_spec hc (by norm_num) (x := y) (by simpa using hy.le) (by simpa using hyb)
  have c1 := hp _ (List.mem_cons_self ..)
  have c2 := hp _ (List.mem_cons_of_mem _ (List.mem_cons_self ..))
  have c3 := hp _ (List.mem_cons_of_mem _ (List.mem_cons_of_mem _ (List.mem_cons_self ..)))
  have c4 := hp _ (List.mem_cons_of_mem _ (List.mem_cons_of_mem _ (List.mem_cons_of_mem _ (List.mem_cons_self ..))))
  have c5 := hp _ (List.mem_cons_of_mem _ (List.mem_cons_of_mem _ (List.mem_cons_of_mem _ (List.mem_cons_of_mem _ (List.mem_cons_self ..)))))
  simp only [PE.toQ] at c1 c2 c3 c4 c5
  have hB := c2.ne'
  simp only [evQ_add, evQ_smul, evQ_mul] at c3 c4 c5
  rw [evQ_frac hB l1, evQ_frac hB l2] at c4 c5
  simp only [pad8, evQ_pad] at c4 c5
  simp only [evQ, evQ_smul, evQ_reverse] at c1 c2 c3 c4 c5
  push_cast at c3 c4 c5
  rw [zero_add] at c3 c4 c5
  set A := (sgn : ℝ) * decPoly ic.anum y with hA
  set B := (sgn : ℝ) * decPoly ic.aden y with hBd
  have hsg : (sgn : ℝ) ≠ 0 := by rintro hz; rw [hA, hz] at c1; simp at c1
  have hw : y * decPoly ic.anum y / decPoly ic.aden y = y * A / B := by
    rw [hA, hBd]
    have : decPoly ic.aden y ≠ 0 := by rintro hz; rw [hBd, hz] at c2; simp at c2
    field_simp
  rw [hw]
  set w := y * A / B with hwdef
  have hw0 : 0 < w := by positivity
  have hw7 : w < 7.4 := by rw [hwdef, div_lt_iff₀ c2]; norm_num at c3 ⊢; linarith
  have hgx := hg (Real.log w) (by rw [Real.exp_log hw0]; exact hw7)
  rw [Real.exp_log hw0] at hgx
  obtain ⟨p1, p2⟩ := hpos w hw0
  set N := decPoly c.anum w
  set Dn := decPoly c.aden w
  set F := fermiDirac j (Real.log w)
  have hF : 0 ≤ F := F_nonneg _ _
  have hB7 : 0 < B ^ 7 := by positivity
  have q1 : A * N < (1 + ε) * (B * Dn) := by
    have : 0 < ((1 + ε) * (B * Dn) - A * N) * B ^ 7 := by linarith
    have := pos_of_mul_pos_left this hB7.le
    linarith
  have q2 : (1 - ε) * (B * Dn) < A * N := by
    have : 0 < (A * N - (1 - ε) * (B * Dn)) * B ^ 7 := by linarith
    have := pos_of_mul_pos_left this hB7.le
    linarith
  have hBD : 0 < B * Dn := mul_pos c2 p2
  have hG : w * N / Dn = y * ((A * N) / (B * Dn)) := by rw [hwdef]; field_simp
  have g1 : w * N / Dn ≤ (1 + ε) * y := by
    rw [hG]
    have : (A * N) / (B * Dn) ≤ 1 + ε := by rw [div_le_iff₀ hBD]; linarith
    nlinarith
  have g2 : (1 - ε) * y ≤ w * N / Dn := by
    rw [hG]
    have : 1 - ε ≤ (A * N) / (B * Dn) := by rw [le_div_iff₀ hBD]; linarith
    nlinarith
  have hε' : (0 : ℝ) ≤ ε := by exact_mod_cast hε
  have hε1' : (ε : ℝ) ≤ 1 := by exact_mod_cast hε1
  obtain ⟨f1, f2⟩ := abs_le.1 hgx
  have hF2 : F ≤ 3 * y := by nlinarith
  rw [abs_le]
  constructor <;> linarith

/-! ### y ≥ 4 -/

def thirdChk (ic : Coef) (sgn : ℚ) (q k : ℕ) (b : List ℚ) (s0 s1 ε : ℚ) (za zb : ℕ) : Bool :=
  let N := PE.lit (ic.bnum.reverse.map (sgn * ·))
  let D := PE.lit (ic.bden.reverse.map (sgn * ·))
  let bh := PE.pow (.sub (.xmul D) N b) 2
  let r := PE.mul (.pow D (2 * q + 1)) (.pow N k)
  decide (k + 2 * q + 1 + 2 = 2 * b.length) &&
  posE (10 ^ 200) 1000000 za [zb] [N, D, .add (.xmul D) (.smul (-s0) N), .add (.smul s1 N) (.smul (-1) (.xmul D)),
    .add (.smul ((1 + ε) ^ 2) r) (.smul (-1) bh), .add bh (.smul (-(1 - ε) ^ 2) r)]

theorem third {ic : Coef} {j : ℝ} {q k : ℕ} {b : List ℚ} {s0 s1 : ℚ} (hP : PanelF j q b s0 s1) {sgn ε : ℚ} {za zb : ℕ}
    (hc : thirdChk ic sgn q k b s0 s1 ε za zb = true) (hε : 0 ≤ ε) (hε1 : ε ≤ 1) {y z : ℝ} (hy : 0 < y) (hz : 0 < z)
    (hyz : y ^ 2 * z ^ (2 * q + 1) = 1) (h1 : (za : ℝ) / 1000000 ≤ z) (h2 : z < (zb : ℝ) / 1000000) :
    |fermiDirac j (decPoly ic.bnum z / (z * decPoly ic.bden z)) - y| ≤ ((ε : ℝ) + 1 / 10 ^ 9) * y := by
  simp only [thirdChk, Bool.and_eq_true, decide_eq_true_eq] at hc
  obtain ⟨l2, hc⟩ := hc
  have hp := posE_spec hc (by norm_num) (x := z) (by exact_mod_cast h1) (by simpa using h2)
  have c1 := hp _ (List.mem_cons_self ..)
  have c2 := hp _ (List.mem_cons_of_mem _ (List.mem_cons_self ..))
  have c3 := hp _ (List.mem_cons_of_mem _ (List.mem_cons_of_mem _ (List.mem_cons_self ..)))
  have c4 := hp _ (List.mem_cons_of_mem _ (List.mem_cons_of_mem _ (List.mem_cons_of_mem _ (List.mem_cons_self ..))))
  have c5 := hp _ (List.mem_cons_of_mem _ (List.mem_cons_of_mem _ (List.mem_cons_of_mem _ (List.mem_cons_of_mem _ (List.mem_cons_self ..)))))
  have c6 := hp _ (List.mem_cons_of_mem _ (List.mem_cons_of_mem _ (List.mem_cons_of_mem _ (List.mem_cons_of_mem _
    (List.mem_cons_of_mem _ (List.mem_cons_self ..))))))
  simp only [PE.toQ] at c1 c2 c3 c4 c5 c6
  obtain ⟨n, hn⟩ : ∃ n, b.length = n + 1 := ⟨b.length - 1, by omega⟩
  have hk : k + (2 * q + 1) = 2 * n := by omega
  simp only [evQ_add, evQ_smul, evQ_mul, evQ_pow] at c3 c4 c5 c6
  rw [evQ_frac c1.ne' hn] at c5 c6
  simp only [evQ, evQ_smul, evQ_reverse] at c1 c2 c3 c4 c5 c6
  push_cast at c3 c4 c5 c6
  rw [zero_add] at c3 c4 c5 c6
  set N := (sgn : ℝ) * decPoly ic.bnum z with hN
  set Dn := (sgn : ℝ) * decPoly ic.bden z with hD
  have hsg : (sgn : ℝ) ≠ 0 := by rintro hz; rw [hN, hz] at c1; simp at c1
  have hx : decPoly ic.bnum z / (z * decPoly ic.bden z) = N / (z * Dn) := by
    rw [hN, hD]
    have : decPoly ic.bden z ≠ 0 := by rintro hz; rw [hD, hz] at c2; simp at c2
    field_simp
  rw [hx]
  set x := N / (z * Dn) with hxd
  have hx0 : 0 < x := by positivity
  have hinv : 1 / x = z * Dn / N := by rw [hxd]; field_simp
  obtain ⟨p1, p2⟩ := hP x hx0 (by rw [hinv, le_div_iff₀ c1]; linarith) (by rw [hinv, div_le_iff₀ c1]; linarith)
  rw [hinv] at p1 p2
  set B := evQ b (z * Dn / N)
  have hε' : (0 : ℝ) ≤ ε := by exact_mod_cast hε
  have hε1' : (ε : ℝ) ≤ 1 := by exact_mod_cast hε1
  have hmul : x ^ (2 * q + 1) * B ^ 2 * (Dn ^ (2 * q + 1) * N ^ k) = y ^ 2 * (B * N ^ n) ^ 2 := by
    have e1 : x ^ (2 * q + 1) * Dn ^ (2 * q + 1) = y ^ 2 * N ^ (2 * q + 1) := by
      have : x * z * Dn = N := by rw [hxd]; field_simp
      have h := congrArg (· ^ (2 * q + 1)) this
      simp only [mul_pow] at h
      have hz' : 0 < z ^ (2 * q + 1) := by positivity
      apply mul_right_cancel₀ hz'.ne'
      calc _ = x ^ (2 * q + 1) * z ^ (2 * q + 1) * Dn ^ (2 * q + 1) := by ring
        _ = N ^ (2 * q + 1) := h
        _ = y ^ 2 * z ^ (2 * q + 1) * N ^ (2 * q + 1) := by rw [hyz, one_mul]
        _ = _ := by ring
    calc _ = (x ^ (2 * q + 1) * Dn ^ (2 * q + 1)) * B ^ 2 * N ^ k := by ring
      _ = y ^ 2 * B ^ 2 * (N ^ k * N ^ (2 * q + 1)) := by rw [e1]; ring
      _ = _ := by rw [← pow_add, hk]; ring
  have hr : 0 < Dn ^ (2 * q + 1) * N ^ k := by positivity
  have hy2 : 0 < y ^ 2 := by positivity
  have := of_squares (F := fermiDirac j x) (y := y) (Z := x ^ (2 * q + 1) * B ^ 2) (e := e0) (ε := ε) (F_nonneg j x) hy.le (by norm_num [e0])
    (by norm_num [e0]) hε' hε1' p1 p2 ?_ ?_
  · refine this.trans (mul_le_mul_of_nonneg_right ?_ hy.le)
    norm_num [e0]
  · apply le_of_mul_le_mul_right _ hr
    rw [hmul]
    have := mul_pos hy2 c6
    nlinarith
  · apply le_of_mul_le_mul_right _ hr
    rw [hmul]
    have := mul_pos hy2 c5
    nlinarith

/-! ### y < 4 and x above 2 -/

/-- `χ` approximates `1/x` on `[ya, yb)` -/
def chiChk (ic : Coef) (sgn : ℚ) (χ : List ℚ) (ya : ℕ) (pts : List ℕ) : Bool :=
  let A := ic.anum.reverse.map (sgn * ·)
  let B := ic.aden.reverse.map (sgn * ·)
  let eA := PE.lit A
  let eB := PE.lit B
  let eχ := PE.lit χ
  let yAB := PE.xmul (.mul eA eB)
  let W := PE.add (.mul eA eB) (.add (.xmul (.mul (.lit (derQ A)) eB)) (.smul (-1) (.xmul (.mul eA (.lit (derQ B))))))
  let l := PE.add (.mul (.lit (derQ χ)) yAB) (.mul (.mul eχ eχ) W)
  let r := PE.smul (1 / 10 ^ 9) (.mul (.mul eχ eχ) yAB)
  let y0 : ℚ := ya / 1000000
  let w0 := y0 * evalQ A y0 / evalQ B y0
  let x0 := 1 / evalQ χ y0
  decide (0 < ya) && decide (0 ≤ x0) && decide (x0 < 205 / 100) && decide (ya < pts.getLastD ya) &&
  decide (pts.getLastD ya ≤ ya + 1500000) &&
  decide ((1 - 1 / 10 ^ 10) * evalQ polE x0 ≤ w0) && decide (w0 ≤ (1 + 1 / 10 ^ 10) * evalQ polE x0) &&
  posE (10 ^ 60) 1000000 ya pts [eA, eB, eχ, .add r l, .add r (.smul (-1) l)]

theorem log_near {t κ : ℝ} (hκ : 0 ≤ κ) (hκ1 : κ ≤ 1 / 2) (h1 : 1 - κ ≤ t) (h2 : t ≤ 1 + κ) : |Real.log t| ≤ 2 * κ := by
  have ht : 0 < t := by linarith
  rw [abs_le]
  constructor
  · have := Real.one_sub_inv_le_log_of_pos ht
    have : t⁻¹ ≤ 1 + 2 * κ := by
      rw [inv_le_comm₀ ht (by linarith)]
      refine le_trans ?_ h1
      rw [inv_le_iff_one_le_mul₀ (by linarith)]
      nlinarith
    linarith
  · have := Real.log_le_sub_one_of_pos ht
    linarith

theorem chi_spec {ic : Coef} {sgn : ℚ} {χ : List ℚ} {ya : ℕ} {pts : List ℕ} (hc : chiChk ic sgn χ ya pts = true) {y : ℝ}
    (h1 : (ya : ℝ) / 1000000 ≤ y) (h2 : y < ((pts.getLastD ya : ℕ) : ℝ) / 1000000) :
    0 < evQ χ y ∧ |Real.log (y * decPoly ic.anum y / decPoly ic.aden y) - 1 / evQ χ y| ≤ 2 / 10 ^ 9 := by
  simp only [chiChk, Bool.and_eq_true, decide_eq_true_eq] at hc
  obtain ⟨⟨⟨⟨⟨⟨⟨l1, l2⟩, l3⟩, l4⟩, l5⟩, l6⟩, l7⟩, hc⟩ := hc
  set A := ic.anum.reverse.map (sgn * ·) with hA
  set B := ic.aden.reverse.map (sgn * ·) with hB
  have l1r : (0 : ℝ) < ya := by exact_mod_cast l1
  have key : ∀ t : ℝ, (ya : ℝ) / 1000000 ≤ t → t < ((pts.getLastD ya : ℕ) : ℝ) / 1000000 →
      0 < t ∧ 0 < evQ A t ∧ 0 < evQ B t ∧ 0 < evQ χ t ∧
      |1 / t + evQ (derQ A) t / evQ A t - evQ (derQ B) t / evQ B t + evQ (derQ χ) t / evQ χ t ^ 2| ≤ 1 / 10 ^ 9 := by
    intro t t1 t2
    have ht : 0 < t := lt_of_lt_of_le (by positivity) t1
    have hp := posE_spec hc (by norm_num) (x := t) (by exact_mod_cast t1) (by exact_mod_cast t2)
    have c1 := hp _ (List.mem_cons_self ..)
    have c2 := hp _ (List.mem_cons_of_mem _ (List.mem_cons_self ..))
    have c3 := hp _ (List.mem_cons_of_mem _ (List.mem_cons_of_mem _ (List.mem_cons_self ..)))
    have c4 := hp _ (List.mem_cons_of_mem _ (List.mem_cons_of_mem _ (List.mem_cons_of_mem _ (List.mem_cons_self ..))))
    have c5 := hp _ (List.mem_cons_of_mem _ (List.mem_cons_of_mem _ (List.mem_cons_of_mem _ (List.mem_cons_of_mem _ (List.mem_cons_self ..)))))
    simp only [PE.toQ] at c1 c2 c3 c4 c5
    refine ⟨ht, c1, c2, c3, ?_⟩
    simp only [evQ_add, evQ_smul, evQ_mul, evQ] at c4 c5
    push_cast at c4 c5
    rw [zero_add] at c4 c5
    set a := evQ A t
    set b := evQ B t
    set x := evQ χ t
    have e : 1 / t + evQ (derQ A) t / a - evQ (derQ B) t / b + evQ (derQ χ) t / x ^ 2 =
        (evQ (derQ χ) t * (t * (a * b)) + x * x * (a * b + (t * (evQ (derQ A) t * b) - t * (a * evQ (derQ B) t)))) /
          (x * x * (t * (a * b))) := by
      field_simp
      ring
    have hden : 0 < x * x * (t * (a * b)) := by positivity
    rw [e, abs_div, abs_of_pos hden, div_le_iff₀ hden, abs_le]
    constructor <;> nlinarith
  obtain ⟨hy0, hAy, hBy, hχy, _⟩ := key y h1 h2
  refine ⟨hχy, ?_⟩
  -- the difference on [y0, y]
  set y0 : ℝ := (ya : ℝ) / 1000000 with hy0d
  set h : ℝ → ℝ := fun t => Real.log t + Real.log (evQ A t) - Real.log (evQ B t) - 1 / evQ χ t with hh
  have hder : ∀ t ∈ Icc y0 y, HasDerivWithinAt h
      (1 / t + evQ (derQ A) t / evQ A t - evQ (derQ B) t / evQ B t + evQ (derQ χ) t / evQ χ t ^ 2) (Icc y0 y) t := by
    intro t ht
    obtain ⟨k0, k1, k2, k3, _⟩ := key t ht.1 (lt_of_le_of_lt ht.2 h2)
    have d1 := Real.hasDerivAt_log k0.ne'
    have d2 := (hasDerivAt_evQ A t).log k1.ne'
    have d3 := (hasDerivAt_evQ B t).log k2.ne'
    have d4 := (hasDerivAt_evQ χ t).inv k3.ne'
    have := (((d1.add d2).sub d3).sub d4)
    refine HasDerivAt.hasDerivWithinAt ?_
    have h' : HasDerivAt h (t⁻¹ + evQ (derQ A) t / evQ A t - evQ (derQ B) t / evQ B t - -evQ (derQ χ) t / evQ χ t ^ 2) t := by
      refine this.congr_of_eventuallyEq (Filter.Eventually.of_forall fun u => ?_)
      simp [hh]
    exact h'.congr_deriv (by ring)
  have hm := (convex_Icc y0 y).norm_image_sub_le_of_norm_hasDerivWithin_le hder
    (fun t ht => by rw [Real.norm_eq_abs]; exact (key t ht.1 (lt_of_le_of_lt ht.2 h2)).2.2.2.2)
    (left_mem_Icc.2 h1) (right_mem_Icc.2 h1)
  rw [Real.norm_eq_abs, Real.norm_eq_abs, abs_of_nonneg (by linarith : 0 ≤ y - y0)] at hm
  have hlen : y - y0 ≤ 1.5 := by
    have : ((pts.getLastD ya : ℕ) : ℝ) ≤ ya + 1500000 := by exact_mod_cast l5
    have : ((pts.getLastD ya : ℕ) : ℝ) - ya ≤ 1500000 := by linarith
    have e1 : ((pts.getLastD ya : ℕ) : ℝ) / 1000000 - y0 ≤ 1.5 := by
      rw [hy0d, ← sub_div, div_le_iff₀ (by norm_num)]
      norm_num1
      exact this
    linarith
  -- the value at y0
  obtain ⟨z0, zA, zB, zχ, _⟩ := key y0 le_rfl (by
    rw [hy0d]; apply div_lt_div_of_pos_right _ (by norm_num); exact_mod_cast l4)
  have hv : |h y0| ≤ 3 / 10 ^ 10 := by
    have cast : y0 = ((ya / 1000000 : ℚ) : ℝ) := by rw [hy0d]; push_cast; ring
    have eA : evQ A y0 = (evalQ A (ya / 1000000) : ℚ) := by rw [cast, evQ_evalQ]
    have eB : evQ B y0 = (evalQ B (ya / 1000000) : ℚ) := by rw [cast, evQ_evalQ]
    have eχ : evQ χ y0 = (evalQ χ (ya / 1000000) : ℚ) := by rw [cast, evQ_evalQ]
    have ex : (1 / evalQ χ (ya / 1000000) : ℚ) = (1 / evQ χ y0 : ℝ) := by rw [eχ]; push_cast; ring
    have hx0 : (0 : ℝ) ≤ 1 / evQ χ y0 := by rw [← ex]; exact_mod_cast l2
    have hx1 : (1 : ℝ) / evQ χ y0 < 2.05 := by
      rw [← ex]
      have := (Rat.cast_lt (K := ℝ)).2 l3
      push_cast at this ⊢
      norm_num at this ⊢
      linarith
    have hE : evQ polE (1 / evQ χ y0) = (evalQ polE (1 / evalQ χ (ya / 1000000)) : ℚ) := by rw [← ex, evQ_evalQ]
    obtain ⟨u1, u2⟩ := polE_spec hx0 hx1
    set w := y0 * evQ A y0 / evQ B y0 with hw
    have hw0 : 0 < w := by positivity
    have hwq : w = ((ya / 1000000 * evalQ A (ya / 1000000) / evalQ B (ya / 1000000) : ℚ) : ℝ) := by
      rw [hw, eA, eB]; push_cast; rw [cast]; push_cast; ring
    have m1 : (1 - 1 / 10 ^ 10) * evQ polE (1 / evQ χ y0) ≤ w := by
      have := (Rat.cast_le (K := ℝ)).2 l6
      rw [Rat.cast_mul, ← hE, ← hwq] at this
      push_cast at this
      exact this
    have m2 : w ≤ (1 + 1 / 10 ^ 10) * evQ polE (1 / evQ χ y0) := by
      have := (Rat.cast_le (K := ℝ)).2 l7
      rw [Rat.cast_mul, ← hE, ← hwq] at this
      push_cast at this
      exact this
    have eh : h y0 = Real.log (w * Real.exp (-(1 / evQ χ y0))) := by
      rw [Real.log_mul hw0.ne' (Real.exp_pos _).ne', Real.log_exp, hw, Real.log_div (by positivity) zB.ne', Real.log_mul z0.ne' zA.ne']
      ring
    rw [eh]
    have ep := Real.exp_pos (-(1 / evQ χ y0))
    have n1 := mul_le_mul_of_nonneg_right m1 ep.le
    have n2 := mul_le_mul_of_nonneg_right m2 ep.le
    rw [mul_assoc] at n1 n2
    refine (log_near (κ := 15 / 10 ^ 11) (by norm_num) (by norm_num) ?_ ?_).trans (by norm_num)
    · nlinarith
    · nlinarith
  have hfin : Real.log (y * decPoly ic.anum y / decPoly ic.aden y) - 1 / evQ χ y = h y := by
    rw [hA, evQ_smul, evQ_reverse] at hAy
    rw [hB, evQ_smul, evQ_reverse] at hBy
    have hsg : (sgn : ℝ) ≠ 0 := by rintro hz; rw [hz] at hAy; simp at hAy
    have hd : decPoly ic.aden y ≠ 0 := by rintro hz; rw [hz] at hBy; simp at hBy
    have : y * decPoly ic.anum y / decPoly ic.aden y = y * (sgn * decPoly ic.anum y) / (sgn * decPoly ic.aden y) := by field_simp
    rw [this, Real.log_div (mul_pos hy0 hAy).ne' hBy.ne', Real.log_mul hy0.ne' hAy.ne']
    simp only [hh, hA, hB, evQ_smul, evQ_reverse]
  rw [hfin]
  have t1 := abs_le.1 hm
  have t2 := abs_le.1 hv
  rw [abs_le]
  norm_num at hlen
  constructor <;> nlinarith

/-- `β` approximates the panel polynomial `b` of the reciprocal `χ`; it keeps the degrees small. -/
def secondChk (χ β : List ℚ) (q : ℕ) (b : List ℚ) (s0 s1 ε : ℚ) (ya yb : ℕ) : Bool :=
  let c := PE.sub (.lit χ) (.lit [1]) b
  let l := PE.pow (.lit β) 2
  let r := PE.xmul (.xmul (.pow (.lit χ) (2 * q + 1)))
  decide (0 < ya) &&
  posE (10 ^ 260) 1000000 ya [yb] [.lit β, .add (.lit χ) (.lit [-s0]), .add (.lit [s1]) (.smul (-1) (.lit χ)),
    .add (.smul ((1 + ε) ^ 2) r) (.smul (-(1 + 1 / 10 ^ 10) ^ 2) l), .add (.smul ((1 - 1 / 10 ^ 10) ^ 2) l) (.smul (-(1 - ε) ^ 2) r),
    .add (.smul (1 + 1 / 10 ^ 10) (.lit β)) (.smul (-1) c), .add c (.smul (-(1 - 1 / 10 ^ 10)) (.lit β))]

set_option maxHeartbeats 2000000 in
theorem second {ic : Coef} {sgn : ℚ} {χ : List ℚ} {yc : ℕ} {pts : List ℕ} (hχ : chiChk ic sgn χ yc pts = true)
    {j : ℝ} (hj : -1 < j) {q : ℕ} {b β : List ℚ} {s0 s1 : ℚ} (hP : PanelF j q b s0 s1) {ε : ℚ} {ya yb : ℕ}
    (hc : secondChk χ β q b s0 s1 ε ya yb = true) (hε : 0 ≤ ε) (hε1 : ε ≤ 1 / 10) {y : ℝ}
    (h1 : (ya : ℝ) / 1000000 ≤ y) (h2 : y < (yb : ℝ) / 1000000)
    (h3 : (yc : ℝ) / 1000000 ≤ y) (h4 : y < ((pts.getLastD yc : ℕ) : ℝ) / 1000000) :
    |fermiDirac j (Real.log (y * decPoly ic.anum y / decPoly ic.aden y)) - y| ≤ ((ε : ℝ) + 45 / 10 ^ 10) * y := by
  simp only [secondChk, Bool.and_eq_true, decide_eq_true_eq] at hc
  obtain ⟨l1, hc⟩ := hc
  have l1r : (0 : ℝ) < ya := by exact_mod_cast l1
  have hy : 0 < y := lt_of_lt_of_le (by positivity) h1
  have hp := posE_spec hc (by norm_num) (x := y) (by exact_mod_cast h1) (by simpa using h2)
  have c1 := hp _ (.head ..)
  have c2 := hp _ (.tail _ (.head ..))
  have c3 := hp _ (.tail _ (.tail _ (.head ..)))
  have c4 := hp _ (.tail _ (.tail _ (.tail _ (.head ..))))
  have c5 := hp _ (.tail _ (.tail _ (.tail _ (.tail _ (.head ..)))))
  have c6 := hp _ (.tail _ (.tail _ (.tail _ (.tail _ (.tail _ (.head ..))))))
  have c7 := hp _ (.tail _ (.tail _ (.tail _ (.tail _ (.tail _ (.tail _ (.head ..)))))))
  simp only [PE.toQ] at c1 c2 c3 c4 c5 c6 c7
  obtain ⟨hχ0, hχe⟩ := chi_spec hχ h3 h4
  simp only [evQ_add, evQ_smul, evQ_pow, evQ_comp, evQ] at c1 c2 c3 c4 c5 c6 c7
  push_cast at c1 c2 c3 c4 c5 c6 c7
  simp only [zero_add, mul_zero, add_zero] at c1 c2 c3 c4 c5 c6 c7
  have d1 : evQ b (evQ χ y) ^ 2 ≤ ((1 + 1 / 10 ^ 10) * evQ β y) ^ 2 := pow_le_pow_left₀ (by nlinarith) (by linarith) 2
  have d2 : ((1 - 1 / 10 ^ 10) * evQ β y) ^ 2 ≤ evQ b (evQ χ y) ^ 2 := pow_le_pow_left₀ (by nlinarith) (by linarith) 2
  rw [mul_pow] at d1 d2
  replace c4 : 0 < (1 + (ε : ℝ)) ^ 2 * (y * (y * evQ χ y ^ (2 * q + 1))) - evQ b (evQ χ y) ^ 2 := by linarith
  replace c5 : 0 < evQ b (evQ χ y) ^ 2 - (1 - (ε : ℝ)) ^ 2 * (y * (y * evQ χ y ^ (2 * q + 1))) := by linarith
  clear d1 d2 c1 c6 c7
  set X := evQ χ y
  set x := Real.log (y * decPoly ic.anum y / decPoly ic.aden y)
  have hi : 1 / (1 / X) = X := by field_simp
  obtain ⟨p1, p2⟩ := hP (1 / X) (by positivity) (by rw [hi]; linarith) (by rw [hi]; linarith)
  rw [hi] at p1 p2
  set B := evQ b X
  have hε' : (0 : ℝ) ≤ ε := by exact_mod_cast hε
  have hε1' : (ε : ℝ) ≤ 1 / 10 := by
    have := (Rat.cast_le (K := ℝ)).2 hε1
    push_cast at this; exact this
  have hXp : 0 < X ^ (2 * q + 1) := by positivity
  have hZ : (1 / X) ^ (2 * q + 1) * B ^ 2 * X ^ (2 * q + 1) = B ^ 2 := by rw [one_div_pow]; field_simp
  have hs := of_squares (F := fermiDirac j (1 / X)) (y := y) (Z := (1 / X) ^ (2 * q + 1) * B ^ 2) (e := e0) (ε := ε) (F_nonneg j _) hy.le
    (by norm_num [e0]) (by norm_num [e0]) hε' (by linarith) p1 p2
    (by apply le_of_mul_le_mul_right _ hXp; rw [hZ]; nlinarith) (by apply le_of_mul_le_mul_right _ hXp; rw [hZ]; nlinarith)
  have t := abs_le.1 hχe
  have b1 : 1 - 3 / 10 ^ 9 ≤ Real.exp (x - 1 / X) := by
    have := Real.add_one_le_exp (x - 1 / X); linarith
  have b2 : Real.exp (x - 1 / X) ≤ 1 + 3 / 10 ^ 9 := by
    have h := Real.add_one_le_exp (-(x - 1 / X))
    have hm : Real.exp (x - 1 / X) * Real.exp (-(x - 1 / X)) = 1 := by rw [← Real.exp_add]; simp
    have hq := Real.exp_pos (x - 1 / X)
    have : Real.exp (x - 1 / X) * (1 - 2 / 10 ^ 9) ≤ 1 := by
      calc Real.exp (x - 1 / X) * (1 - 2 / 10 ^ 9) ≤ Real.exp (x - 1 / X) * Real.exp (-(x - 1 / X)) :=
            mul_le_mul_of_nonneg_left (by linarith) hq.le
        _ = 1 := hm
    by_contra hlt
    push Not at hlt
    nlinarith
  obtain ⟨n1, n2⟩ := near hj b1 b2
  set F := fermiDirac j (1 / X)
  have hs' := abs_le.1 hs
  rw [e0] at hs'
  have hF1 : F ≤ 1.2 * y := by nlinarith
  norm_num at hF1
  rw [abs_le]
  constructor <;> nlinarith

end FdInv
end Npplus
