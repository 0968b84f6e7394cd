import Verif.Lemmas.FermiInv32

/-!
# Panels of the Fermi-Dirac integrals for the inverse functions

Generated data: `pM12_i` etc. approximate `F_j(x) / x^(j+1)` as polynomials of `1/x`; `chiM12`, `chi12` approximate the
reciprocal of the inverse function where the result is larger than 2 and the argument below 4.  All of them are certified by
the kernel below.
-/

set_option linter.unusedSectionVars false
namespace Npplus
open Npplus.Spec Npplus.Fermi

namespace FdInv
open Cheb FdTail

/-! ### order 5/2 -/

def p52_0 : List ℚ := [28571428572714670004 / 10 ^ 20, -2050204350169 / 10 ^ 20, 411234018734710904283 / 10 ^ 20,
  -40480514919984171 / 10 ^ 20, 356255704532895016473 / 10 ^ 20]

theorem p52_0_ok : hiChk fd52Coef 1 p52_0 (0) (1001 / 32000) 0 [31282] = true := by decide +kernel

def p52_1 : List ℚ := [28571424435251965836 / 10 ^ 20, 548697866648378 / 10 ^ 20, 411203797596164991376 / 10 ^ 20,
  837383843735851109 / 10 ^ 20, 342311486030797701127 / 10 ^ 20, 98948131660392888539 / 10 ^ 20]

theorem p52_1_ok : hiChk fd52Coef 1 p52_1 (999 / 32000) (1001 / 16000) 31218 [62563] = true := by decide +kernel

def p52_2 : List ℚ := [28571121253462630971 / 10 ^ 20, 22541880395982344 / 10 ^ 20, 410554116307662818569 / 10 ^ 20,
  10690770861944673757 / 10 ^ 20, 264025308986550507142 / 10 ^ 20, 381388217839087232614 / 10 ^ 20,
  -234768940079142731240 / 10 ^ 20]

theorem p52_2_ok : hiChk fd52Coef 1 p52_2 (999 / 16000) (1001 / 8000) 62437 [93781, 125126] = true := by decide +kernel

def p52_3 : List ℚ := [28568447634013694523 / 10 ^ 20, 184627378326107888 / 10 ^ 20, 406558826943486777218 / 10 ^ 20,
  62968120658493958208 / 10 ^ 20, -126936434717247391574 / 10 ^ 20, 2027148559569815229282 / 10 ^ 20,
  -3703600152826127129564 / 10 ^ 20, 2501267874959747706713 / 10 ^ 20]

theorem p52_3_ok : hiChk fd52Coef 1 p52_3 (999 / 8000) (1001 / 4000) 124875 [140547, 156219, 187563, 218907, 234579, 250251] = true := by decide +kernel

def p52_4 : List ℚ := [28673206422791236085 / 10 ^ 20, -2737706056609206336 / 10 ^ 20, 441943640867236543411 / 10 ^ 20,
  -177629439847932027755 / 10 ^ 20, 860586259600648577035 / 10 ^ 20, -390722906271642945605 / 10 ^ 20,
  -564538425250740236412 / 10 ^ 20, 1279808925961586119230 / 10 ^ 20, -1032211100611666812905 / 10 ^ 20,
  323064811715145550224 / 10 ^ 20]

theorem p52_4_ok : hiChk fd52Coef 1 p52_4 (999 / 4000) (9999 / 20000) 249750 [374850, 499951] = true := by decide +kernel

def p52_5 : List ℚ := [28099341908373917557 / 10 ^ 20, 4781564941256061028 / 10 ^ 20, 401422444267430289842 / 10 ^ 20,
  -71579938382378354481 / 10 ^ 20, 778561290436181407206 / 10 ^ 20, -696330363211621693548 / 10 ^ 20,
  495706231395814269511 / 10 ^ 20, -236910598143816374195 / 10 ^ 20, 67608532321361546477 / 10 ^ 20,
  -8704970040216804326 / 10 ^ 20]

theorem p52_5_ok : loChk fd52Coef 3 11 p52_5 (2499 / 5000) (1001 / 1000) 999000 [2000801] = true := by decide +kernel

def p52_6 : List ℚ := [23716712502264987892 / 10 ^ 20, 43111876881176085895 / 10 ^ 20, 247696296185266319508 / 10 ^ 20,
  299239295994021159362 / 10 ^ 20, 186917857388793260991 / 10 ^ 20, -50900984448166018584 / 10 ^ 20,
  16084076548402165094 / 10 ^ 20, -3699687433674387873 / 10 ^ 20, 521610846437763257 / 10 ^ 20,
  -33519004868383090 / 10 ^ 20]

theorem p52_6_ok : loChk fd52Coef 3 11 p52_6 (999 / 1000) (1001 / 500) 499500 [1001002] = true := by decide +kernel

def p52_7 : List ℚ := [12143605952253358987 / 10 ^ 20, 90438007172794158874 / 10 ^ 20, 158441451036941560199 / 10 ^ 20,
  401408319270220491767 / 10 ^ 20, 108699589441438261866 / 10 ^ 20, -9488016278364994297 / 10 ^ 20,
  994452075040628306 / 10 ^ 20, -72092194020263961 / 10 ^ 20, 2499092632685168 / 10 ^ 20]

theorem p52_7_ok : loChk fd52Coef 3 9 p52_7 (999 / 500) (357 / 100) 280112 [500501] = true := by decide +kernel

theorem i52_first : firstChk fd52Coef ifd52Coef 1 (3 / 125000000) 4000000 = true := by decide +kernel

theorem i52_third0 : thirdChk ifd52Coef (-1) 3 1 p52_0 (-1) (1001 / 32000) (3 / 125000000) 0 44520 = true := by decide +kernel

theorem i52_third1 : thirdChk ifd52Coef (-1) 3 3 p52_1 (999 / 32000) (1001 / 16000) (3 / 125000000) 44520 88007 = true := by decide +kernel

theorem i52_third2 : thirdChk ifd52Coef (-1) 3 5 p52_2 (999 / 16000) (1001 / 8000) (3 / 125000000) 88007 168606 = true := by decide +kernel

theorem i52_third3 : thirdChk ifd52Coef (-1) 3 7 p52_3 (999 / 8000) (1001 / 4000) (3 / 125000000) 168606 295435 = true := by decide +kernel

theorem i52_third4 : thirdChk ifd52Coef (-1) 3 11 p52_4 (999 / 4000) (9999 / 20000) (3 / 125000000) 295435 441152 = true := by decide +kernel

theorem i52_third5 : thirdChk ifd52Coef (-1) 3 11 p52_5 (2499 / 5000) (1001 / 1000) (3 / 125000000) 441152 559637 = true := by decide +kernel

theorem i52_third6 : thirdChk ifd52Coef (-1) 3 11 p52_6 (999 / 1000) (1001 / 500) (3 / 125000000) 559637 635532 = true := by decide +kernel

theorem i52_third7 : thirdChk ifd52Coef (-1) 3 9 p52_7 (999 / 500) (357 / 100) (3 / 125000000) 635532 672951 = true := by decide +kernel

end FdInv
end Npplus
