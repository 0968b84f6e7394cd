import Verif.Lemmas.FermiInv12

/-!
# Panels of the Fermi-Dirac integrals for the inverse functions

Generated data: `pM12_i` etc. approximate `F_j(x) / x^(j+1)` as polynomials of `1/x`; `chiM12`, `chi12` approximate the
reciprocal of the inverse function where the result is larger than 2 and the argument below 4.  All of them are certified by
the kernel below.
-/

set_option linter.unusedSectionVars false
namespace Npplus
open Npplus.Spec Npplus.Fermi

namespace FdInv
open Cheb FdTail

/-! ### order 3/2 -/

def p32_0 : List ℚ := [39999999998698094319 / 10 ^ 20, 2081892836188 / 10 ^ 20, 246739600276830835648 / 10 ^ 20, 41058623962420213 / 10 ^ 20,
  -72159388377680604089 / 10 ^ 20]

theorem p32_0_ok : hiChk fd32Coef 1 p32_0 (0) (1001 / 32000) 0 [31282] = true := by decide +kernel

def p32_1 : List ℚ := [40000006249541753529 / 10 ^ 20, -817191209293210 / 10 ^ 20, 246783503266450172620 / 10 ^ 20,
  -1188075806678301668 / 10 ^ 20, -53634695178042046080 / 10 ^ 20, -123491002975926184598 / 10 ^ 20]

theorem p32_1_ok : hiChk fd32Coef 1 p32_1 (999 / 32000) (1001 / 16000) 31218 [62563] = true := by decide +kernel

def p32_2 : List ℚ := [40000726410599518838 / 10 ^ 20, -55945474705022236 / 10 ^ 20, 248528953291418615500 / 10 ^ 20,
  -30312863962479541149 / 10 ^ 20, 214176509152910768895 / 10 ^ 20, -1388795417548486151843 / 10 ^ 20,
  2314503033440958332067 / 10 ^ 20]

theorem p32_2_ok : hiChk fd32Coef 1 p32_2 (999 / 16000) (1001 / 8000) 62437 [78109, 93781, 125126] = true := by decide +kernel

def p32_3 : List ℚ := [39998132360860509842 / 10 ^ 20, -4031169886578509 / 10 ^ 20, 249309689231522228882 / 10 ^ 20,
  -65929619762314893223 / 10 ^ 20, 696901548596871996730 / 10 ^ 20, -4727974382624571476564 / 10 ^ 20,
  14793221968288205447050 / 10 ^ 20, -22970041864700618231034 / 10 ^ 20, 14613540186065958631888 / 10 ^ 20]

theorem p32_3_ok : hiChk fd32Coef 1 p32_3 (999 / 8000) (1001 / 4000) 124875 [187563, 250251] = true := by decide +kernel

def p32_4 : List ℚ := [39938540899138033500 / 10 ^ 20, 2427020983585508653 / 10 ^ 20, 207429829851586142585 / 10 ^ 20,
  338446135478098753101 / 10 ^ 20, -1718923371256884065379 / 10 ^ 20, 4471472623926184495149 / 10 ^ 20,
  -7122406383212428243283 / 10 ^ 20, 7115777422857603614824 / 10 ^ 20, -4125010753293375231832 / 10 ^ 20,
  1064226746984264002459 / 10 ^ 20]

theorem p32_4_ok : hiChk fd32Coef 1 p32_4 (999 / 4000) (9999 / 20000) 249750 [374850, 499951] = true := by decide +kernel

def p32_5 : List ℚ := [40078135837151651890 / 10 ^ 20, -4407748546936409311 / 10 ^ 20, 292055794288490286330 / 10 ^ 20,
  -182908265752522102075 / 10 ^ 20, 207031267184809947029 / 10 ^ 20, -111378849986106215397 / 10 ^ 20,
  25740704649839458543 / 10 ^ 20]

theorem p32_5_ok : loChk fd32Coef 2 7 p32_5 (2499 / 5000) (651 / 1000) 1536098 [2000801] = true := by decide +kernel

theorem i32_first : firstChk fd32Coef ifd32Coef 1 (9 / 1000000000) 4000000 = true := by decide +kernel

theorem i32_third0 : thirdChk ifd32Coef (-1) 2 3 p32_0 (-1) (1001 / 32000) (9 / 1000000000) 0 44976 = true := by decide +kernel

theorem i32_third1 : thirdChk ifd32Coef (-1) 2 5 p32_1 (999 / 32000) (1001 / 16000) (9 / 1000000000) 44976 89315 = true := by decide +kernel

theorem i32_third2 : thirdChk ifd32Coef (-1) 2 7 p32_2 (999 / 16000) (1001 / 8000) (9 / 1000000000) 89315 173850 = true := by decide +kernel

theorem i32_third3 : thirdChk ifd32Coef (-1) 2 11 p32_3 (999 / 8000) (1001 / 4000) (9 / 1000000000) 173850 317337 = true := by decide +kernel

theorem i32_third4 : thirdChk ifd32Coef (-1) 2 13 p32_4 (999 / 4000) (9999 / 20000) (9 / 1000000000) 317337 504223 = true := by decide +kernel

theorem i32_third5 : thirdChk ifd32Coef (-1) 2 7 p32_5 (2499 / 5000) (651 / 1000) (9 / 1000000000) 504223 574350 = true := by decide +kernel

end FdInv
end Npplus
