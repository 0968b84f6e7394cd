import Verif.Lemmas.FermiInvM12
import Verif.Lemmas.FermiInv12
import Verif.Lemmas.FermiInv32
import Verif.Lemmas.FermiInv52

/-!
# C85: the inverse functions invert the Fermi-Dirac integrals
-/

set_option linter.unusedSectionVars false
namespace Npplus
open MeasureTheory Set Npplus.Spec Npplus.Fermi

namespace FdInv
open Cheb FdTail

theorem goodHi_all : GoodHi fdm12Coef 0 (-1 / 2) ∧ GoodHi fd12Coef 1 (1 / 2) ∧ GoodHi fd32Coef 2 (3 / 2) ∧ GoodHi fd52Coef 3 (5 / 2) := by
  refine ⟨fun x hx => ?_, fun x hx => ?_, fun x hx => ?_, fun x hx => ?_⟩
  · have := accuracy_hi (fun _ _ => one_pos) expands_m12 allHi_m12 (by decide +kernel) (by norm_num) (by norm_num) hx
    rw [pow_zero]
    refine this.trans (mul_le_mul_of_nonneg_right ?_ (F_nonneg _ _)); push_cast; norm_num
  · have := accuracy_hi (fun x hx => hx) expands_12 allHi_12 (by decide +kernel) (by norm_num) (by norm_num) hx
    rw [pow_one]
    refine this.trans (mul_le_mul_of_nonneg_right ?_ (F_nonneg _ _)); push_cast; norm_num
  · have := accuracy_hi (fun x hx => pow_pos hx 2) expands_32 allHi_32 (by decide +kernel) (by norm_num) (by norm_num) hx
    refine this.trans (mul_le_mul_of_nonneg_right ?_ (F_nonneg _ _)); push_cast; norm_num
  · have := accuracy_hi (fun x hx => pow_pos hx 3) expands_52 allHi_52 (by decide +kernel) (by norm_num) (by norm_num) hx
    refine this.trans (mul_le_mul_of_nonneg_right ?_ (F_nonneg _ _)); push_cast; norm_num

theorem pos_of_coef (c : Coef) (h : (c.anum ≠ [] ∧ c.anum.all (fun a => decide (0 < a)) = true) ∧
    (c.aden ≠ [] ∧ c.aden.all (fun a => decide (0 < a)) = true)) (z : ℝ) (hz : 0 < z) : 0 < decPoly c.anum z ∧ 0 < decPoly c.aden z :=
  ⟨decPoly_pos_coef _ h.1.1 h.1.2 z hz, decPoly_pos_coef _ h.2.1 h.2.2 z hz⟩

/-- the first panel begins at infinity -/
theorem PanelF.ext {j : ℝ} {q : ℕ} {b : List ℚ} {s1 : ℚ} (h : PanelF j q b 0 s1) : PanelF j q b (-1) s1 :=
  fun x hx _ h2 => h x hx (by push_cast; positivity) h2

/-- `z = y^(-2/(2q+1))` for `y ≥ 4` -/
theorem z_of_y {q : ℕ} {y : ℝ} (hy : 4 ≤ y) : 0 < y ^ (-2 / (2 * q + 1) : ℝ) ∧ y ^ 2 * (y ^ (-2 / (2 * q + 1) : ℝ)) ^ (2 * q + 1) = 1 := by
  have hy0 : 0 < y := by linarith
  refine ⟨Real.rpow_pos_of_pos hy0 _, ?_⟩
  have hq : (2 * (q : ℝ) + 1) ≠ 0 := by positivity
  rw [← Real.rpow_natCast (y ^ (-2 / (2 * q + 1) : ℝ)), ← Real.rpow_mul hy0.le]
  push_cast
  rw [div_mul_cancel₀ _ hq, Real.rpow_neg hy0.le, show (2 : ℝ) = ((2 : ℕ) : ℝ) by norm_num, Real.rpow_natCast]
  have : y ^ 2 ≠ 0 := by positivity
  field_simp

theorem z_lt {m : ℕ} {y z : ℝ} (hy : 4 ≤ y) (hz : 0 < z) (h : y ^ 2 * z ^ m = 1) {a : ℝ} (ha : 0 < a) (h1 : 1 < 16 * a ^ m) : z < a := by
  by_contra hlt
  push Not at hlt
  have h2 : a ^ m ≤ z ^ m := pow_le_pow_left₀ ha.le hlt m
  have h3 : 16 ≤ y ^ 2 := by nlinarith
  have h4 : 0 < a ^ m := by positivity
  nlinarith

/-! ### order -1 / 2 -/

theorem panelM12_0 : PanelF (-1 / 2) 0 pM12_0 (0) (1001 / 32000) := panelHi goodHi_all.1 pM12_0_ok

theorem panelM12_1 : PanelF (-1 / 2) 0 pM12_1 (999 / 32000) (1001 / 16000) := panelHi goodHi_all.1 pM12_1_ok

theorem panelM12_2 : PanelF (-1 / 2) 0 pM12_2 (999 / 16000) (1001 / 8000) := panelHi goodHi_all.1 pM12_2_ok

theorem panelM12_3 : PanelF (-1 / 2) 0 pM12_3 (999 / 8000) (1001 / 4000) := panelHi goodHi_all.1 pM12_3_ok

theorem panelM12_4 : PanelF (-1 / 2) 0 pM12_4 (999 / 4000) (9999 / 20000) := panelHi goodHi_all.1 pM12_4_ok

theorem hiM12 {y z : ℝ} (hy : 0 < y) (hz : 0 < z) (hyz : y ^ 2 * z ^ (2 * 0 + 1) = 1) (hm : z < 62501 / 1000000) :
    |fermiDirac (-1 / 2) (decPoly ifdm12Coef.bnum z / (z * decPoly ifdm12Coef.bden z)) - y| ≤ (1 / 10 ^ 8) * y := by
  by_cases h0 : z < 7818 / 1000000
  · have := third panelM12_0.ext iM12_third0 (by norm_num) (by norm_num) hy hz hyz (by push_cast; linarith) (by push_cast; exact h0)
    refine this.trans_eq ?_; push_cast; ring
  push Not at h0
  by_cases h1 : z < 15676 / 1000000
  · have := third panelM12_1 iM12_third1 (by norm_num) (by norm_num) hy hz hyz (by push_cast; linarith) (by push_cast; exact h1)
    refine this.trans_eq ?_; push_cast; ring
  push Not at h1
  by_cases h2 : z < 31693 / 1000000
  · have := third panelM12_2 iM12_third2 (by norm_num) (by norm_num) hy hz hyz (by push_cast; linarith) (by push_cast; exact h2)
    refine this.trans_eq ?_; push_cast; ring
  push Not at h2
  have := third panelM12_3 iM12_third3 (by norm_num) (by norm_num) hy hz hyz (by push_cast; linarith) (by push_cast; exact hm)
  refine this.trans_eq ?_; push_cast; ring

theorem loM12 {y : ℝ} (hy : 0 < y) (h4 : y < 4) :
    |fermiDirac (-1 / 2) (Real.log (y * decPoly ifdm12Coef.anum y / decPoly ifdm12Coef.aden y)) - y| ≤ (1 / 10 ^ 8) * y := by
  by_cases h0 : y < 2595700 / 1000000
  · have := first goodLo_all.1 (pos_of_coef _ (by decide +kernel)) iM12_first (by norm_num) (by norm_num) hy (by push_cast; linarith)
    refine this.trans (mul_le_mul_of_nonneg_right ?_ hy.le); push_cast; norm_num
  push Not at h0
  by_cases h1 : y < 3874300 / 1000000
  · have := second iM12_chi (by norm_num) panelM12_4 iM12_second4 (by norm_num) (by norm_num) (y := y) (by push_cast; linarith) (by push_cast; linarith)
      (by push_cast; linarith) (by norm_num [List.getLastD]; linarith)
    refine this.trans (mul_le_mul_of_nonneg_right ?_ hy.le); push_cast; norm_num
  push Not at h1
  have := second iM12_chi (by norm_num) panelM12_3 iM12_second3 (by norm_num) (by norm_num) (y := y) (by push_cast; linarith) (by push_cast; linarith)
    (by push_cast; linarith) (by norm_num [List.getLastD]; linarith)
  refine this.trans (mul_le_mul_of_nonneg_right ?_ hy.le); push_cast; norm_num

/-! ### order 1 / 2 -/

theorem panel12_0 : PanelF (1 / 2) 1 p12_0 (0) (1001 / 32000) := panelHi goodHi_all.2.1 p12_0_ok

theorem panel12_1 : PanelF (1 / 2) 1 p12_1 (999 / 32000) (1001 / 16000) := panelHi goodHi_all.2.1 p12_1_ok

theorem panel12_2 : PanelF (1 / 2) 1 p12_2 (999 / 16000) (1001 / 8000) := panelHi goodHi_all.2.1 p12_2_ok

theorem panel12_3 : PanelF (1 / 2) 1 p12_3 (999 / 8000) (1001 / 4000) := panelHi goodHi_all.2.1 p12_3_ok

theorem panel12_4 : PanelF (1 / 2) 1 p12_4 (999 / 4000) (9999 / 20000) := panelHi goodHi_all.2.1 p12_4_ok

theorem hi12 {y z : ℝ} (hy : 0 < y) (hz : 0 < z) (hyz : y ^ 2 * z ^ (2 * 1 + 1) = 1) (hm : z < 396851 / 1000000) :
    |fermiDirac (1 / 2) (decPoly ifd12Coef.bnum z / (z * decPoly ifd12Coef.bden z)) - y| ≤ (1 / 10 ^ 8) * y := by
  by_cases h0 : z < 40916 / 1000000
  · have := third panel12_0.ext i12_third0 (by norm_num) (by norm_num) hy hz hyz (by push_cast; linarith) (by push_cast; exact h0)
    refine this.trans_eq ?_; push_cast; ring
  push Not at h0
  by_cases h1 : z < 81635 / 1000000
  · have := third panel12_1 i12_third1 (by norm_num) (by norm_num) hy hz hyz (by push_cast; linarith) (by push_cast; exact h1)
    refine this.trans_eq ?_; push_cast; ring
  push Not at h1
  by_cases h2 : z < 161691 / 1000000
  · have := third panel12_2 i12_third2 (by norm_num) (by norm_num) hy hz hyz (by push_cast; linarith) (by push_cast; exact h2)
    refine this.trans_eq ?_; push_cast; ring
  push Not at h2
  by_cases h3 : z < 310822 / 1000000
  · have := third panel12_3 i12_third3 (by norm_num) (by norm_num) hy hz hyz (by push_cast; linarith) (by push_cast; exact h3)
    refine this.trans_eq ?_; push_cast; ring
  push Not at h3
  have := third panel12_4 i12_third4 (by norm_num) (by norm_num) hy hz hyz (by push_cast; linarith) (by push_cast; exact hm)
  refine this.trans_eq ?_; push_cast; ring

theorem lo12 {y : ℝ} (hy : 0 < y) (h4 : y < 4) :
    |fermiDirac (1 / 2) (Real.log (y * decPoly ifd12Coef.anum y / decPoly ifd12Coef.aden y)) - y| ≤ (1 / 10 ^ 8) * y := by
  by_cases h0 : y < 2503100 / 1000000
  · have := first goodLo_all.2.1 (pos_of_coef _ (by decide +kernel)) i12_first (by norm_num) (by norm_num) hy (by push_cast; linarith)
    refine this.trans (mul_le_mul_of_nonneg_right ?_ hy.le); push_cast; norm_num
  push Not at h0
  have := second i12_chi (by norm_num) panel12_4 i12_second4 (by norm_num) (by norm_num) (y := y) (by push_cast; linarith) (by push_cast; linarith)
    (by push_cast; linarith) (by norm_num [List.getLastD]; linarith)
  refine this.trans (mul_le_mul_of_nonneg_right ?_ hy.le); push_cast; norm_num

/-! ### order 3 / 2 -/

theorem panel32_0 : PanelF (3 / 2) 2 p32_0 (0) (1001 / 32000) := panelHi goodHi_all.2.2.1 p32_0_ok

theorem panel32_1 : PanelF (3 / 2) 2 p32_1 (999 / 32000) (1001 / 16000) := panelHi goodHi_all.2.2.1 p32_1_ok

theorem panel32_2 : PanelF (3 / 2) 2 p32_2 (999 / 16000) (1001 / 8000) := panelHi goodHi_all.2.2.1 p32_2_ok

theorem panel32_3 : PanelF (3 / 2) 2 p32_3 (999 / 8000) (1001 / 4000) := panelHi goodHi_all.2.2.1 p32_3_ok

theorem panel32_4 : PanelF (3 / 2) 2 p32_4 (999 / 4000) (9999 / 20000) := panelHi goodHi_all.2.2.1 p32_4_ok

theorem panel32_5 : PanelF (3 / 2) 2 p32_5 (2499 / 5000) (651 / 1000) :=
  panelLo (by norm_num) (pos_of_coef _ (by decide +kernel)) goodLo_all.2.2.1 p32_5_ok

theorem hi32 {y z : ℝ} (hy : 0 < y) (hz : 0 < z) (hyz : y ^ 2 * z ^ (2 * 2 + 1) = 1) (hm : z < 574350 / 1000000) :
    |fermiDirac (3 / 2) (decPoly ifd32Coef.bnum z / (z * decPoly ifd32Coef.bden z)) - y| ≤ (1 / 10 ^ 8) * y := by
  by_cases h0 : z < 44976 / 1000000
  · have := third panel32_0.ext i32_third0 (by norm_num) (by norm_num) hy hz hyz (by push_cast; linarith) (by push_cast; exact h0)
    refine this.trans_eq ?_; push_cast; ring
  push Not at h0
  by_cases h1 : z < 89315 / 1000000
  · have := third panel32_1 i32_third1 (by norm_num) (by norm_num) hy hz hyz (by push_cast; linarith) (by push_cast; exact h1)
    refine this.trans_eq ?_; push_cast; ring
  push Not at h1
  by_cases h2 : z < 173850 / 1000000
  · have := third panel32_2 i32_third2 (by norm_num) (by norm_num) hy hz hyz (by push_cast; linarith) (by push_cast; exact h2)
    refine this.trans_eq ?_; push_cast; ring
  push Not at h2
  by_cases h3 : z < 317337 / 1000000
  · have := third panel32_3 i32_third3 (by norm_num) (by norm_num) hy hz hyz (by push_cast; linarith) (by push_cast; exact h3)
    refine this.trans_eq ?_; push_cast; ring
  push Not at h3
  by_cases h4 : z < 504223 / 1000000
  · have := third panel32_4 i32_third4 (by norm_num) (by norm_num) hy hz hyz (by push_cast; linarith) (by push_cast; exact h4)
    refine this.trans_eq ?_; push_cast; ring
  push Not at h4
  have := third panel32_5 i32_third5 (by norm_num) (by norm_num) hy hz hyz (by push_cast; linarith) (by push_cast; exact hm)
  refine this.trans_eq ?_; push_cast; ring

theorem lo32 {y : ℝ} (hy : 0 < y) (h4 : y < 4) :
    |fermiDirac (3 / 2) (Real.log (y * decPoly ifd32Coef.anum y / decPoly ifd32Coef.aden y)) - y| ≤ (1 / 10 ^ 8) * y := by
  have := first goodLo_all.2.2.1 (pos_of_coef _ (by decide +kernel)) i32_first (by norm_num) (by norm_num) hy (by push_cast; linarith)
  refine this.trans (mul_le_mul_of_nonneg_right ?_ hy.le); push_cast; norm_num

/-! ### order 5 / 2 -/

theorem panel52_0 : PanelF (5 / 2) 3 p52_0 (0) (1001 / 32000) := panelHi goodHi_all.2.2.2 p52_0_ok

theorem panel52_1 : PanelF (5 / 2) 3 p52_1 (999 / 32000) (1001 / 16000) := panelHi goodHi_all.2.2.2 p52_1_ok

theorem panel52_2 : PanelF (5 / 2) 3 p52_2 (999 / 16000) (1001 / 8000) := panelHi goodHi_all.2.2.2 p52_2_ok

theorem panel52_3 : PanelF (5 / 2) 3 p52_3 (999 / 8000) (1001 / 4000) := panelHi goodHi_all.2.2.2 p52_3_ok

theorem panel52_4 : PanelF (5 / 2) 3 p52_4 (999 / 4000) (9999 / 20000) := panelHi goodHi_all.2.2.2 p52_4_ok

theorem panel52_5 : PanelF (5 / 2) 3 p52_5 (2499 / 5000) (1001 / 1000) :=
  panelLo (by norm_num) (pos_of_coef _ (by decide +kernel)) goodLo_all.2.2.2 p52_5_ok

theorem panel52_6 : PanelF (5 / 2) 3 p52_6 (999 / 1000) (1001 / 500) :=
  panelLo (by norm_num) (pos_of_coef _ (by decide +kernel)) goodLo_all.2.2.2 p52_6_ok

theorem panel52_7 : PanelF (5 / 2) 3 p52_7 (999 / 500) (357 / 100) :=
  panelLo (by norm_num) (pos_of_coef _ (by decide +kernel)) goodLo_all.2.2.2 p52_7_ok

theorem hi52 {y z : ℝ} (hy : 0 < y) (hz : 0 < z) (hyz : y ^ 2 * z ^ (2 * 3 + 1) = 1) (hm : z < 672951 / 1000000) :
    |fermiDirac (5 / 2) (decPoly ifd52Coef.bnum z / (z * decPoly ifd52Coef.bden z)) - y| ≤ (25 / 10 ^ 9) * y := by
  by_cases h0 : z < 44520 / 1000000
  · have := third panel52_0.ext i52_third0 (by norm_num) (by norm_num) hy hz hyz (by push_cast; linarith) (by push_cast; exact h0)
    refine this.trans_eq ?_; push_cast; ring
  push Not at h0
  by_cases h1 : z < 88007 / 1000000
  · have := third panel52_1 i52_third1 (by norm_num) (by norm_num) hy hz hyz (by push_cast; linarith) (by push_cast; exact h1)
    refine this.trans_eq ?_; push_cast; ring
  push Not at h1
  by_cases h2 : z < 168606 / 1000000
  · have := third panel52_2 i52_third2 (by norm_num) (by norm_num) hy hz hyz (by push_cast; linarith) (by push_cast; exact h2)
    refine this.trans_eq ?_; push_cast; ring
  push Not at h2
  by_cases h3 : z < 295435 / 1000000
  · have := third panel52_3 i52_third3 (by norm_num) (by norm_num) hy hz hyz (by push_cast; linarith) (by push_cast; exact h3)
    refine this.trans_eq ?_; push_cast; ring
  push Not at h3
  by_cases h4 : z < 441152 / 1000000
  · have := third panel52_4 i52_third4 (by norm_num) (by norm_num) hy hz hyz (by push_cast; linarith) (by push_cast; exact h4)
    refine this.trans_eq ?_; push_cast; ring
  push Not at h4
  by_cases h5 : z < 559637 / 1000000
  · have := third panel52_5 i52_third5 (by norm_num) (by norm_num) hy hz hyz (by push_cast; linarith) (by push_cast; exact h5)
    refine this.trans_eq ?_; push_cast; ring
  push Not at h5
  by_cases h6 : z < 635532 / 1000000
  · have := third panel52_6 i52_third6 (by norm_num) (by norm_num) hy hz hyz (by push_cast; linarith) (by push_cast; exact h6)
    refine this.trans_eq ?_; push_cast; ring
  push Not at h6
  have := third panel52_7 i52_third7 (by norm_num) (by norm_num) hy hz hyz (by push_cast; linarith) (by push_cast; exact hm)
  refine this.trans_eq ?_; push_cast; ring

theorem lo52 {y : ℝ} (hy : 0 < y) (h4 : y < 4) :
    |fermiDirac (5 / 2) (Real.log (y * decPoly ifd52Coef.anum y / decPoly ifd52Coef.aden y)) - y| ≤ (25 / 10 ^ 9) * y := by
  have := first goodLo_all.2.2.2 (pos_of_coef _ (by decide +kernel)) i52_first (by norm_num) (by norm_num) hy (by push_cast; linarith)
  refine this.trans (mul_le_mul_of_nonneg_right ?_ hy.le); push_cast; norm_num

/-- `G` of an array of positive numbers has the shape of the array, and the Fermi-Dirac integral of order `j` of each element
of the result is the element of the argument, to the relative accuracy `eps`. -/
def _root_.Npplus.Spec.InverseOf (G : NdArr ℝ → NdArr ℝ) (j eps : ℝ) : Prop := ∀ y : NdArr ℝ, (G y).shape = y.shape ∧
  ∀ idx, ValidIdx y.shape idx → 0 < y.get idx → |fermiDirac j ((G y).get idx) - y.get idx| ≤ eps * y.get idx

theorem inverse_of {G : NdArr ℝ → NdArr ℝ} {c : Coef} {f : ℝ → ℝ} {j eps : ℝ} (hG : Elementwise G (ifdValue c f))
    (h1 : ∀ y : ℝ, 0 < y → y < 4 → |fermiDirac j (Real.log (y * decPoly c.anum y / decPoly c.aden y)) - y| ≤ eps * y)
    (h2 : ∀ y : ℝ, 4 ≤ y → |fermiDirac j (decPoly c.bnum (f y) / (f y * decPoly c.bden (f y))) - y| ≤ eps * y) : InverseOf G j eps := by
  intro y
  refine ⟨(hG y).1, fun idx hv hy => ?_⟩
  rw [(hG y).2 idx hv, ifdValue]
  split_ifs with h
  · exact h1 _ hy h
  · exact h2 _ (not_lt.1 h)

end FdInv
open FdInv

/-- **C85**: `ifdm12`, `ifd12`, `ifd32`, `ifd52` are the inverses of the Fermi-Dirac integrals `∫₀^∞ t^j/(exp(t-x)+1) dt` of order
-1/2, 1/2, 3/2, 5/2, for every positive number, elementwise for every array: putting the result back into the integral reproduces
the argument to a relative accuracy of 1e-8 (2.5e-8 for the order 5/2). -/
theorem C85_ifd_inverse : InverseOf ifdm12 (-1 / 2) (1 / 10 ^ 8) ∧ InverseOf ifd12 (1 / 2) (1 / 10 ^ 8) ∧
    InverseOf ifd32 (3 / 2) (1 / 10 ^ 8) ∧ InverseOf ifd52 (5 / 2) (25 / 10 ^ 9) := by
  obtain ⟨g1, g2, g3, g4⟩ := C70_ifd
  refine ⟨inverse_of g1 (fun y => loM12) fun y hy => ?_, inverse_of g2 (fun y => lo12) fun y hy => ?_,
    inverse_of g3 (fun y => lo32) fun y hy => ?_, inverse_of g4 (fun y => lo52) fun y hy => ?_⟩
  · have hy0 : 0 < y := by linarith
    have hz : 0 < y⁻¹ ^ 2 := by positivity
    have hyz : y ^ 2 * (y⁻¹ ^ 2) ^ (2 * 0 + 1) = 1 := by rw [mul_zero, zero_add, pow_one]; field_simp
    exact hiM12 hy0 hz hyz (z_lt hy hz hyz (by norm_num) (by norm_num))
  · obtain ⟨hz, hyz⟩ := z_of_y (q := 1) hy
    rw [show (-2 / (2 * ((1 : ℕ) : ℝ) + 1)) = -2 / 3 by norm_num] at hz hyz
    exact hi12 (by linarith) hz hyz (z_lt hy hz hyz (by norm_num) (by norm_num))
  · obtain ⟨hz, hyz⟩ := z_of_y (q := 2) hy
    rw [show (-2 / (2 * ((2 : ℕ) : ℝ) + 1)) = -2 / 5 by norm_num] at hz hyz
    exact hi32 (by linarith) hz hyz (z_lt hy hz hyz (by norm_num) (by norm_num))
  · obtain ⟨hz, hyz⟩ := z_of_y (q := 3) hy
    rw [show (-2 / (2 * ((3 : ℕ) : ℝ) + 1)) = -2 / 7 by norm_num] at hz hyz
    exact hi52 (by linarith) hz hyz (z_lt hy hz hyz (by norm_num) (by norm_num))

/-- `F (G y)` is `y` to the relative accuracy `eps`, for positive `y`. -/
def Spec.RoundTrip (F G : NdArr ℝ → NdArr ℝ) (eps : ℝ) : Prop := ∀ y : NdArr ℝ, (F (G y)).shape = y.shape ∧
  ∀ idx, ValidIdx y.shape idx → 0 < y.get idx → |(F (G y)).get idx - y.get idx| ≤ eps * y.get idx

theorem roundTrip {F G : NdArr ℝ → NdArr ℝ} {j e1 e2 eps : ℝ} (hF : Accurate F j e1) (hG : InverseOf G j e2) (he1 : 0 ≤ e1) (h : e1 * (1 + e2) + e2 ≤ eps) :
    RoundTrip F G eps := by
  intro y
  obtain ⟨s1, k1⟩ := hF (G y)
  obtain ⟨s2, k2⟩ := hG y
  refine ⟨s1.trans s2, fun idx hv hy => ?_⟩
  have a := abs_le.1 (k1 idx (by rw [s2]; exact hv))
  have b := abs_le.1 (k2 idx hv hy)
  set x := fermiDirac j ((G y).get idx)
  set w := y.get idx
  have hx : e1 * x ≤ e1 * ((1 + e2) * w) := mul_le_mul_of_nonneg_left (by linarith) he1
  have hw := mul_le_mul_of_nonneg_right h hy.le
  rw [abs_le]
  constructor <;> linarith [mul_assoc e1 (1 + e2) w, add_mul (e1 * (1 + e2)) e2 w]

/-- **C85**, in terms of the API only: `fd12(ifd12(y))` is `y` to 1.0005e-8, and so on. -/
theorem C85_roundtrip : RoundTrip fdm12 ifdm12 (10005 / 10 ^ 12) ∧ RoundTrip fd12 ifd12 (10005 / 10 ^ 12) ∧
    RoundTrip fd32 ifd32 (10005 / 10 ^ 12) ∧ RoundTrip fd52 ifd52 (25005 / 10 ^ 12) := by
  obtain ⟨a1, a2, a3, a4⟩ := C79_fd_accuracy
  obtain ⟨b1, b2, b3, b4⟩ := C85_ifd_inverse
  exact ⟨roundTrip a1 b1 (by norm_num) (by norm_num), roundTrip a2 b2 (by norm_num) (by norm_num),
    roundTrip a3 b3 (by norm_num) (by norm_num), roundTrip a4 b4 (by norm_num) (by norm_num)⟩

/-- Two elements, 1 and 10, one in each branch of `ifd12`. -/
example : |fermiDirac (1 / 2) ((ifd12 ⟨[2], fun i => if i = [0] then 1 else 10⟩).get [0]) - 1| ≤ 1 / 10 ^ 8 * 1 ∧
    |fermiDirac (1 / 2) ((ifd12 ⟨[2], fun i => if i = [0] then 1 else 10⟩).get [1]) - 10| ≤ 1 / 10 ^ 8 * 10 :=
  ⟨(C85_ifd_inverse.2.1 ⟨[2], fun i => if i = [0] then 1 else 10⟩).2 [0] (by simp [ValidIdx]) (by norm_num),
    (C85_ifd_inverse.2.1 ⟨[2], fun i => if i = [0] then 1 else 10⟩).2 [1] (by simp [ValidIdx]) (by norm_num)⟩

end Npplus
