import Verif.Lemmas.FermiInvM12

/-!
# Panels of the Fermi-Dirac integrals for the inverse functions

Generated data: `pM12_i` etc. approximate `F_j(x) / x^(j+1)` as polynomials of `1/x`; `chiM12`, `chi12` approximate the
reciprocal of the inverse function where the result is larger than 2 and the argument below 4.  All of them are certified by
the kernel below.
-/

set_option linter.unusedSectionVars false
namespace Npplus
open Npplus.Spec Npplus.Fermi

namespace FdInv
open Cheb FdTail

/-! ### order 1/2 -/

def p12_0 : List ℚ := [66666666669754758796 / 10 ^ 20, -4952611323748 / 10 ^ 20, 82247915938005616572 / 10 ^ 20, -97548293131233057 / 10 ^ 20,
  73709694842342170931 / 10 ^ 20]

theorem p12_0_ok : hiChk fd12Coef 1 p12_0 (0) (1001 / 32000) 0 [31282] = true := by decide +kernel

def p12_1 : List ℚ := [66666643776971357285 / 10 ^ 20, 2963786379155794 / 10 ^ 20, 82091573238214338945 / 10 ^ 20,
  4153436270472182342 / 10 ^ 20, 12508290403087562543 / 10 ^ 20, 383779363484949452751 / 10 ^ 20]

theorem p12_1_ok : hiChk fd12Coef 1 p12_1 (999 / 32000) (1001 / 16000) 31218 [62563] = true := by decide +kernel

def p12_2 : List ℚ := [66664086762025286993 / 10 ^ 20, 217577745920725455 / 10 ^ 20, 74530470668936950658 / 10 ^ 20,
  147845054176085693560 / 10 ^ 20, -1555914837425908175777 / 10 ^ 20, 9979946754800985862459 / 10 ^ 20,
  -29100626960876579483950 / 10 ^ 20, 30437141192673504851907 / 10 ^ 20]

theorem p12_2_ok : hiChk fd12Coef 1 p12_2 (999 / 16000) (1001 / 8000) 62437 [93781, 125126] = true := by decide +kernel

def p12_3 : List ℚ := [66694462971741563143 / 10 ^ 20, -1190528405739327331 / 10 ^ 20, 101069700845920287343 / 10 ^ 20,
  -99013118169053885136 / 10 ^ 20, -625099075970473934325 / 10 ^ 20, 12587998404378585729631 / 10 ^ 20,
  -70104839814263828202572 / 10 ^ 20, 194151290751212752730118 / 10 ^ 20, -278978689439215382914995 / 10 ^ 20,
  167395323735435292817519 / 10 ^ 20]

theorem p12_3_ok : hiChk fd12Coef 1 p12_3 (999 / 8000) (1001 / 4000) 124875 [250251] = true := by decide +kernel

def p12_4 : List ℚ := [66439273760777729316 / 10 ^ 20, 4911994996594151760 / 10 ^ 20, 51004855039422826105 / 10 ^ 20,
  -76703537975943832351 / 10 ^ 20, 2023573697021082113545 / 10 ^ 20, -10045212441387222179330 / 10 ^ 20,
  26146135801643089702023 / 10 ^ 20, -41761343224641977806432 / 10 ^ 20, 41487507193012932994073 / 10 ^ 20,
  -23725588989956497653577 / 10 ^ 20, 6002506695149387161629 / 10 ^ 20]

theorem p12_4_ok : hiChk fd12Coef 1 p12_4 (999 / 4000) (9999 / 20000) 249750 [374850, 499951] = true := by decide +kernel

theorem i12_first : firstChk fd12Coef ifd12Coef 1 (9 / 1000000000) 2503100 = true := by decide +kernel

def chi12 : List ℚ := [2957595623682001747420 / 10 ^ 20, -9920681052626912446638 / 10 ^ 20, 16763991899314473068454 / 10 ^ 20,
  -18062725740008080554470 / 10 ^ 20, 13672069661690875432702 / 10 ^ 20, -7637655423516214715818 / 10 ^ 20,
  3234078856419855450400 / 10 ^ 20, -1051684779154548213334 / 10 ^ 20, 263434248056976309849 / 10 ^ 20,
  -50513305265544168820 / 10 ^ 20, 7291253615518205126 / 10 ^ 20, -767632046774665116 / 10 ^ 20,
  55687962712948731 / 10 ^ 20, -2490470642747269 / 10 ^ 20, 51781292518698 / 10 ^ 20]

theorem i12_chi : chiChk ifd12Coef 1 chi12 2503100 [3251550, 4000000] = true := by decide +kernel

def b12_4 : List ℚ := [2585143617887600453221 / 10 ^ 20, -7386870365372760409615 / 10 ^ 20,
  10594761339587665525877 / 10 ^ 20, -9522442330459015686892 / 10 ^ 20, 5898567470717459514066 / 10 ^ 20,
  -2635386121459147910500 / 10 ^ 20, 867346942852915010619 / 10 ^ 20, -211312865704818706111 / 10 ^ 20,
  37753924727312171163 / 10 ^ 20, -4817552526339788981 / 10 ^ 20, 416335635914112140 / 10 ^ 20, -21861703739994121 / 10 ^ 20,
  527161004011223 / 10 ^ 20]

theorem i12_second4 : secondChk chi12 b12_4 1 p12_4 (999 / 4000) (9999 / 20000) (5 / 10 ^ 9) 2503100 4000000 = true := by decide +kernel

theorem i12_third0 : thirdChk ifd12Coef (-1) 1 5 p12_0 (-1) (1001 / 32000) (9 / 1000000000) 0 40916 = true := by decide +kernel

theorem i12_third1 : thirdChk ifd12Coef (-1) 1 7 p12_1 (999 / 32000) (1001 / 16000) (9 / 1000000000) 40916 81635 = true := by decide +kernel

theorem i12_third2 : thirdChk ifd12Coef (-1) 1 11 p12_2 (999 / 16000) (1001 / 8000) (9 / 1000000000) 81635 161691 = true := by decide +kernel

theorem i12_third3 : thirdChk ifd12Coef (-1) 1 15 p12_3 (999 / 8000) (1001 / 4000) (9 / 1000000000) 161691 310822 = true := by decide +kernel

theorem i12_third4 : thirdChk ifd12Coef (-1) 1 17 p12_4 (999 / 4000) (9999 / 20000) (9 / 1000000000) 310822 396851 = true := by decide +kernel

end FdInv
end Npplus
