import Verif.Lemmas.FermiInvRegion

/-!
# Panels of the Fermi-Dirac integrals for the inverse functions

Generated data: `pM12_i` etc. approximate `F_j(x) / x^(j+1)` as polynomials of `1/x`; `chiM12`, `chi12` approximate the
reciprocal of the inverse function where the result is larger than 2 and the argument below 4.  All of them are certified by
the kernel below.
-/

set_option linter.unusedSectionVars false
namespace Npplus
open Npplus.Spec Npplus.Fermi

namespace FdInv
open Cheb FdTail

/-! ### order -1/2 -/

def pM12_0 : List ℚ := [200000000003331127992 / 10 ^ 20, -7445093436569 / 10 ^ 20, -82243955705565448003 / 10 ^ 20,
  -369694092895025272 / 10 ^ 20, -332868727950592417138 / 10 ^ 20, -605035871982393324265 / 10 ^ 20]

theorem pM12_0_ok : hiChk fdm12Coef (-1) pM12_0 (0) (1001 / 32000) 0 [31282] = true := by decide +kernel

def pM12_1 : List ℚ := [200000301335629457563 / 10 ^ 20, -38994449788385461 / 10 ^ 20, -80211696680053257414 / 10 ^ 20,
  -54060700560967514686 / 10 ^ 20, 392251419229632575792 / 10 ^ 20, -4652082719871284122804 / 10 ^ 20]

theorem pM12_1_ok : hiChk fdm12Coef (-1) pM12_1 (999 / 32000) (1001 / 16000) 31218 [62563] = true := by decide +kernel

def pM12_2 : List ℚ := [200031915625712419575 / 10 ^ 20, -2904377240050582142 / 10 ^ 20, 29882315683403820137 / 10 ^ 20,
  -2366697912235946693590 / 10 ^ 20, 28850462558696817655126 / 10 ^ 20, -207205106385614603673500 / 10 ^ 20,
  755147614602013711142006 / 10 ^ 20, -1087816385779352141456488 / 10 ^ 20]

theorem pM12_2_ok : hiChk fdm12Coef (-1) pM12_2 (999 / 16000) (1001 / 8000) 62437 [93781, 125126] = true := by decide +kernel

def pM12_3 : List ℚ := [199241014526211671818 / 10 ^ 20, 41535790350343956412 / 10 ^ 20, -1057701226486420191963 / 10 ^ 20,
  12706824612293038811445 / 10 ^ 20, -99669416791427449399566 / 10 ^ 20, 475765608437089724186652 / 10 ^ 20,
  -1417607221055900263295239 / 10 ^ 20, 2617615849837406933522761 / 10 ^ 20, -2765843293197553097896433 / 10 ^ 20,
  1286087588658695013851634 / 10 ^ 20]

theorem pM12_3_ok : hiChk fdm12Coef (-1) pM12_3 (999 / 8000) (1001 / 4000) 124875 [187563, 250251] = true := by decide +kernel

def pM12_4 : List ℚ := [204746027802429373389 / 10 ^ 20, -148067969160377608318 / 10 ^ 20, 1877321466104371316721 / 10 ^ 20,
  -14086736514132565720889 / 10 ^ 20, 59218797954616698768733 / 10 ^ 20, -158570423469524387598376 / 10 ^ 20,
  286288095217316334168405 / 10 ^ 20, -350944034630599577567896 / 10 ^ 20, 282009985452577021273024 / 10 ^ 20,
  -134659359126872687396266 / 10 ^ 20, 29057499799931678808204 / 10 ^ 20]

theorem pM12_4_ok : hiChk fdm12Coef (-1) pM12_4 (999 / 4000) (9999 / 20000) 249750 [499951] = true := by decide +kernel

theorem iM12_first : firstChk fdm12Coef ifdm12Coef (-1) (9 / 1000000000) 2595700 = true := by decide +kernel

def chiM12 : List ℚ := [42620063720260824091313 / 10 ^ 20, -172074170482049754236213 / 10 ^ 20, 331655013474086950677575 / 10 ^ 20,
  -401117059434812095409233 / 10 ^ 20, 339028624969281271237626 / 10 ^ 20, -211598931731190235160142 / 10 ^ 20,
  100580395084958370857361 / 10 ^ 20, -37033695006427278044479 / 10 ^ 20, 10640089689542723976335 / 10 ^ 20,
  -2383778742722817855351 / 10 ^ 20, 412827189705861330813 / 10 ^ 20, -54249584185919665316 / 10 ^ 20,
  5234471415443913195 / 10 ^ 20, -350000035736269641 / 10 ^ 20, 14497726817242762 / 10 ^ 20, -280388201533142 / 10 ^ 20]

theorem iM12_chi : chiChk ifdm12Coef (-1) chiM12 2595700 [3297850, 3648925, 4000000] = true := by decide +kernel

def bM12_3 : List ℚ := [163024661755486010658 / 10 ^ 20, -4891725828655297641 / 10 ^ 20, 9575310713951667509 / 10 ^ 20,
  -2225106781337209426 / 10 ^ 20, 156747999478320461 / 10 ^ 20]

theorem iM12_second3 : secondChk chiM12 bM12_3 0 pM12_3 (999 / 8000) (1001 / 4000) (5 / 10 ^ 9) 3874300 4000000 = true := by decide +kernel

def bM12_4 : List ℚ := [2929681128759904786906 / 10 ^ 20, -8038332747222682029669 / 10 ^ 20,
  10906165616577494237964 / 10 ^ 20, -9051347918272806794638 / 10 ^ 20, 5084365455938383487454 / 10 ^ 20,
  -2021236931797643337546 / 10 ^ 20, 578582886916991188809 / 10 ^ 20, -119022049455493750685 / 10 ^ 20,
  17219372184668771033 / 10 ^ 20, -1666790898997266542 / 10 ^ 20, 97072266611620961 / 10 ^ 20, -2575093757534904 / 10 ^ 20]

theorem iM12_second4 : secondChk chiM12 bM12_4 0 pM12_4 (999 / 4000) (9999 / 20000) (5 / 10 ^ 9) 2595700 3874300 = true := by decide +kernel

theorem iM12_third0 : thirdChk ifdm12Coef 1 0 9 pM12_0 (-1) (1001 / 32000) (9 / 1000000000) 0 7818 = true := by decide +kernel

theorem iM12_third1 : thirdChk ifdm12Coef 1 0 9 pM12_1 (999 / 32000) (1001 / 16000) (9 / 1000000000) 7818 15676 = true := by decide +kernel

theorem iM12_third2 : thirdChk ifdm12Coef 1 0 13 pM12_2 (999 / 16000) (1001 / 8000) (9 / 1000000000) 15676 31693 = true := by decide +kernel

theorem iM12_third3 : thirdChk ifdm12Coef 1 0 17 pM12_3 (999 / 8000) (1001 / 4000) (9 / 1000000000) 31693 62501 = true := by decide +kernel

end FdInv
end Npplus
