import Verif.Lemmas.FermiPanel
import Verif.Lemmas.PosCert

/-!
# Certified approximations of `dN` and `eN`

The tables were made by interpolation; nothing is assumed about them, the residual of the differential equation and the values at the ends
of the panels are checked here.
-/

set_option linter.unusedSectionVars false
namespace Npplus
namespace FdTail

/-- `dN y` as a polynomial of `s = n/y`, `n ≤ y ≤ 2n`, `n = 2, 4, …, 30`; coefficients times 10^24. -/
def tabD : List (List ℤ) := [
  [997804848188903411800878, 1299132460867514782932084, -36005399699436894421609173, 596836899504152532180514542,
    -6117971003769803722400448315, 43708676612814437746739465491, -232390035992548275566025340997, 962724294359309850479772457190,
    -3210797645916265866082980627306, 8821297691628531916488909660736, -20287823278365141851807100994040,
    39494779434387310893050656375296, -65564469223565239116261067327667, 93241499414061654041946177130417,
    -113849245491342654712913665429122, 119370484710513263905691101661891, -107277661904453827978965038619797,
    82312326183421213646064769975215, -53585093711483262242143270152738, 29328526522299221048901518839095,
    -13323989252163817990537619327688, 4934599729217145741535210243775, -1451853565319016634999023282399,
    326462707255560638436019209273, -52697096281010346334155379535, 5437362225820964182617828914, -269398556256906429248191961],
  [1010728492251037046285099, -100444551531314305914791, 1217337806926533616746835, 15119163308987277216651203,
    -313124438585850425088946308, 2834888096555224676089739820, -16845729747162558763317812472, 73408900156845674372720467461,
    -247371942690226508977872031960, 665513752353993558477860155552, -1459932918532259868760324977599,
    2648885411840899051361723811479, -4012291994472184490784815880856, 5101427095032241486793835243343,
    -5456529761201865171172828391786, 4905940906180571176936336928292, -3693623843508816120783205570121,
    2312034830090746367305067153312, -1189746823425631515483402700855, 494945917613244623410968377024,
    -162380250907229873208608960477, 40451970290228285638310588582, -7192673554007114242669371241, 813304259098313567211353420,
    -43954859955628303698806914],
  [1011916287220868058351440, -324393944416494664726356, 6625571246544361034260481, -67311827892092069356098932,
    484163499682270130186891446, -2612272679308919852595409367, 10981433275219300232619520125, -36892688981539457678511283509,
    100863617457694130848774290067, -227439601692179232926464008862, 427245996380489251265413624097, -673446432614147055401389200606,
    894939220177660716301905558709, -1005038771733978161409818305594, 953891620657076333145748815532,
    -763355769699178580665634803772, 512508542856739350110091619169, -286350772001075029990540241009, 131544995937391683940958742086,
    -48823797766273661686672705357, 14272006774741100483604088985, -3161321288066038900573189408, 498358878927259167706776463,
    -49770510405404355512671756, 2364086329183609900875857],
  [997230135832384575598040, 151630488719312292119199, -1344985422389198344437936, 12985744395592287839179057,
    -87544250701864332649102322, 442171696646921998525176296, -1735726481062940875183405673, 5425628489487626673954915716,
    -13731740192657314342443867434, 28469184009355340555338941349, -48743319756862595203418861133, 69281592353590542699106727950,
    -81964059764778990554840528784, 80710762703649161255253704581, -65962996639002898977128599698, 44467765898983407046923260308,
    -24472730091479916949776930587, 10822061381961877674490044936, -3753961267272589338739241042, 984173229674962062579918408,
    -183408999711284805096702734, 21658192248924874342570451, -1218546482870639334417137],
  [999314178796121330093483, 68133132778340789275792, -216988954976023371019104, 1728981787939100562941670,
    -9241550246189884550382678, 36486552599698080259664695, -109999012830365658617283629, 258701885611586280119122010,
    -480864703962869321165411800, 711611796806285273540552991, -840792970050771020740069363, 792079466566824794944794376,
    -591359692566332314758935546, 345688683736637890300872014, -154981646322841785321709716, 51492333663191982828862692,
    -11953996075543682718268288, 1732174619486676650078398, -118010073476817186285683],
  [1000052372903632254712170, 40363761969309849072951, 19904886704768909376744, -96504105134881133044922, 406413734950365693651272,
    -957823205015089413604457, 129214666551619033529526, 8995340017811986275963242, -41811224782694831576071358,
    116587593126380878616451394, -234700655231153081820571868, 361092429239095800689932488, -434448019510276925239605012,
    412115709362588979050889007, -307858769456968841043391554, 179399252757471180329594134, -79996885808993292375157856,
    26398746866787295640896561, -6081578068599389349149588, 874006476781594258579737, -59035760014572189548650],
  [999968226850400119655348, 36603575652014509278336, -7881707905805598549744, 96981384468300493480133, -553976808478059631619798,
    2367790998756755135757673, -7779393254096410844153677, 20081648452735025419969916, -41254448071051368421167900,
    67891473295166324136275787, -89619565852975091701630049, 94524150806325418542058778, -78851653036915027868272041,
    51013814631022456813225546, -24657339019181603604445129, 8203328496775944206443984, -1431901625152302182053579,
    -135803732545719089770340, 149404036593317054200759, -35982006690670691096930, 3277921758180609029229],
  [999992122612535168548994, 31448738737996657066732, 585489713812496400468, 17612113037181994823119, -87032422868241505723859,
    325613048361464167567488, -925328790254669786869820, 2039226401886186327068531, -3519308563681360116602433,
    4768478720304138678313613, -5050233082509481940415965, 4128747126838616571522919, -2542751298457855539481836,
    1125546762638884978345334, -321782074595424933732736, 39290388757603634838384, 8086051817940258862805, -3865985758259835641752,
    459263306973649888709],
  [999997153967797905849431, 27843887126723714059897, 1599493901638236840149, 5104178309357640554323, -22036142382255440545456,
    74770899993639141148303, -191308539154589813256045, 377390651129135289478782, -579150259365416981089658,
    692769702625542730957668, -642872006006444298381654, 457355614524596987177098, -244299369118828356510502,
    94670090413981771038568, -25101031761761261341538, 4070269212989432187780, -304289073022104382614],
  [1000000147762924370791686, 24995976579445391783186, 1925517632851670018823, -154617449472221618635, 2099538130115485045882,
    -7935056510670831881916, 23138470813799184415719, -51865570614778115093139, 90432438597341801136727, -122974696850106988560899,
    129900552180592298125013, -105377855298344048722360, 64302645890694795279482, -28512897702097070264359, 8661571239854058798753,
    -1610861131664472276582, 138273675628524014569],
  [1000000193408705917437909, 22722775361569966900967, 1598347241057470142548, -150957503676469180341, 1546034890025909832949,
    -5161260086441093635676, 13332169916704358338548, -26567545468326979711075, 41292858670892814672958, -50154039437610309504669,
    47381510502234018038483, -34398209941793815992131, 18784152770247353439390, -7448360990436818942678, 2020359391265053459140,
    -334747004404543847299, 25519558619134017576],
  [999999989538141758146291, 20833513810002638958426, 1300726246206390995814, 141260409803586058589, 7263267591559837835,
    8574418654372436895, 63889770631944343458, -233599902292313512166, 467748675677493303514, -620695170717341507532,
    571442316836627625967, -362589362649565313766, 151618692147123054600, -37581490253712295640, 4174875686129360462],
  [1000000013302314477268246, 19230490657782081825614, 1112167252043416641593, 90632546424172863672, 79697790783228476547,
    -190233281605040920464, 425028786718485151481, -708863140930458103008, 901663689198747648778, -867987881391247529309,
    621964939923084783504, -321147510106393413102, 112731359220773841446, -24017301377204703473, 2336888910398320412],
  [999999994587725253683559, 17857239828703033056116, 955838969208933015926, 89337538858165864075, -2373780374227850453,
    32474156342638982616, -52329608625949791670, 66070952442413484002, -60005679724598282446, 38628016829031430095,
    -16659445400212618613, 4317263283658180531, -504823537988916464],
  [999999998359656114644885, 16666695611627216678407, 833100317513021508221, 70575902027339849999, 4411875472746888285,
    9727428148712124979, -14012909007504672443, 17427708945628335554, -15344622034147895463, 9566632949023719846,
    -3972830951950858710, 985243379649628337, -108856059664071164]]

/-- `eN y`, the same -/
def tabE : List (List ℤ) := [
  [999998134095606531907897, -249943829517915493500282, 186680486387649265184460, -226597963084763078392031,
    355562986617589723899140, -615171146857753791322232, 1048706545062781324352163, -1641687041187256861152515,
    2264251346497833312672677, -2683187814886510659588874, 2684860022312099688981462, -2235139711553768916585434,
    1524147207779007670654245, -835131487200793417240890, 358212729644847483956804, -115732334794043747994429,
    26466328764601501295891, -3816949242763038747572, 260949739661448072037],
  [999999951144843190650071, -124998730661463747009587, 46859283504744627958048, -29173039391369860412281, 24933788172776098809645,
    -25778262353265744466899, 28787881316298488950263, -31552781562777633183188, 31623687854887015712660, -27593694928436497657724,
    20220550683607666906276, -12063991127284526442472, 5670025411331204330656, -2011937752743687947636, 505317989095949017483,
    -79928601919551510846, 5980264026165024078],
  [999999991389214574148104, -83333138935653131350610, 20831266604853849805026, -8666767802113468123918, 4998678959592120298188,
    -3566304267360744239484, 2827744942930873790614, -2245894950529209390942, 1636681868993276785829, -1022242868432646339533,
    517330181850632340270, -200556623971510489171, 55405455263312832529, -9661340789590495283, 796659173606409152],
  [999999999147282782196229, -62499980962409649628880, 11718550439382384576242, -3660802147242792291168, 1596159733842141440943,
    -880501050884892101037, 563726978442127882810, -381399876834488298347, 248426095293722267483, -143708488268262063378,
    68991301788294402991, -25772102965764486078, 6931028804313485919, -1184639529576412983, 96197542341527908],
  [999999999151454226643395, -49999983671772403390696, 7499854235043781567420, -1874197798551075009614, 653197166198980709119,
    -286758534508765775725, 144025062428672348539, -74151535271337470348, 34982916061300180051, -13632052610626871168,
    3951933305780137847, -740319476847714972, 66377975041707560],
  [999999999812377569296196, -41666663076943743032064, 5208301518485873740012, -1084895987255307762626, 315826643824576974983,
    -116883565164475980962, 50624183203262481094, -23245956696637692370, 10117634798349667709, -3734177918701907391,
    1043742944141032802, -190691289980818750, 16797672947757731],
  [999999999950474892457931, -35714284770860761601644, 3826522296518688353112, -683264016681613484163, 170659598216386672033,
    -54452630593283029610, 20630184386640296629, -8501958541090455993, 3420556904863438981, -1196510369026589089, 322629352499247277,
    -57523284843238760, 4981586373578851],
  [999999999805954689855827, -31249996878671398832561, 2929664627505911724925, -457662559386604934630, 99834660134335867298,
    -27523442520766908675, 8677638144502286408, -2740306370090467380, 737512734448205684, -139275229753727294, 13175733214329598],
  [999999999924963210395803, -27777776574357915527296, 2314806029908267357810, -321463415759566855545, 62399977848595631750,
    -15388023831040147661, 4403309117518702703, -1291559846142623492, 330532950512956660, -60415793294243378, 5596004625634618],
  [999999999968542418767323, -24999999496736189037233, 1874996337734093776869, -234358956937375193539, 40968427641129506156,
    -9129959867521951689, 2387095828345960515, -652405157648425983, 158972861618219741, -28146157195457169, 2554118007151988],
  [999999999985890201995331, -22727272502011767925963, 1549585141958408170180, -176082269139204557953, 27993322849024402492,
    -5686815871268163784, 1366826491457985585, -349148020996105136, 81112959476350399, -13920518733933254, 1238260474053463],
  [999999999993297128833902, -20833333226513763741148, 1302082559805754968689, -135630313509506555963, 19770090109139499916,
    -3688464637431414456, 819439886612021353, -196222140715836281, 43517703822766953, -7244242338158769, 631979970521753],
  [999999999996654277915705, -19230769177532925086686, 1109467070865474195823, -106677892475124741677, 14355853692012985886,
    -2475530947433698233, 510877689923595934, -115003312754525559, 24379144934501843, -3939009958028150, 337172960133609],
  [999999999998256428291775, -17857142829437137116395, 956632453164303356577, -85412763712959984632, 10674193303898691111,
    -1710762497904813730, 329422815706073344, -69899644635250332, 14181260020237842, -2225326688779221, 186982862780786],
  [999999999999056250850892, -16666666651688236364171, 833333225426257787191, -69443977855131208919, 8100502762775955522,
    -1212527160507189278, 218735857454241874, -43860202988329776, 8526502071638779, -1300227124984011, 107286326192980]]

/-- `dN y` as a polynomial of `s = 32/y`, `y ≥ 32` -/
def endD : List ℤ := [999999999999999999637861, 15625000000000209035759, 732421874980067505646, 57220459732509357480, 6258473010837155213,
    880273683871708820, 149920783944920564, 37910212224641860, -20085883355905694, 77140157962895644, -151288050137590605,
    224350754509180558, -238841402863483448, 178680545033450444, -88702065866884645, 26175654167206523, -3444029616812581]

/-- `eN y`, the same -/
def endE : List ℤ := [999999999999999999915480, -15624999999999971401488, 732421874998389791978, -57220458948592911366, 6258487286136020706,
    -880096946231302420, 151254167863845861, -30686491990951027, 7117080615251500, -1785929788206384, 431891893794474,
    -82079000464380, 8429046936800]


/-! ### polynomials -/

open Cheb

/-- the table entries as rationals -/
def toQ (H : List ℤ) : List ℚ := H.map fun z => (z : ℚ) / 10 ^ 24

/-- derivative -/
def derQ : List ℚ → List ℚ
  | [] => []
  | _ :: L => addQ L (0 :: derQ L)

theorem hasDerivAt_evQ : ∀ (c : List ℚ) (u : ℝ), HasDerivAt (evQ c) (evQ (derQ c) u) u
  | [], u => by simpa [evQ, derQ] using hasDerivAt_const u (0 : ℝ)
  | a :: L, u => by
    have h := ((hasDerivAt_id u).mul (hasDerivAt_evQ L u)).const_add (a : ℝ)
    refine h.congr_deriv ?_
    simp only [derQ, evQ_add, evQ, id]
    push_cast; ring

/-- `c(r u)` -/
def scaleQ (r : ℚ) : List ℚ → List ℚ
  | [] => []
  | a :: L => a :: (scaleQ r L).map (r * ·)

theorem evQ_scaleQ (r : ℚ) : ∀ (c : List ℚ) (u : ℝ), evQ (scaleQ r c) u = evQ c (r * u)
  | [], u => rfl
  | a :: L, u => by simp only [scaleQ, evQ, evQ_smul, evQ_scaleQ r L u]; ring

/-- value at a rational -/
def evalQ : List ℚ → ℚ → ℚ
  | [], _ => 0
  | a :: L, u => a + u * evalQ L u

theorem evQ_evalQ : ∀ (c : List ℚ) (u : ℚ), evQ c (u : ℝ) = (evalQ c u : ℚ)
  | [], u => by simp [evQ, evalQ]
  | a :: L, u => by simp only [evQ, evalQ, evQ_evalQ L u]; push_cast; ring

/-- The approximation used for `n ≤ y ≤ 2n`, `n` even; for `n ≥ 32` it holds for `y ≥ n`.  It is a polynomial of `n/y`. -/
def gTab (tab : List (List ℤ)) (last : List ℤ) (n : ℕ) : List ℚ :=
  if n < 32 then toQ (tab.getD (n / 2 - 1) []) else scaleQ (32 / n) (toQ last)

/-- the residuals of the two differential equations, in `s = n/y` -/
def resD (n : ℕ) (h : List ℚ) : List ℚ :=
  addQ (mulQ [0, -1 / (2 * n)] h) (addQ (mulQ [0, 0, -1 / n] (derQ h)) (addQ h [-1]))

def resE (n : ℕ) (h : List ℚ) : List ℚ :=
  addQ (mulQ [0, -1 / (2 * n)] h) (addQ (mulQ [0, 0, -1 / n] (derQ h)) (addQ (h.map (-1 * ·)) [1]))

/-- `|R| ≤ 1e-16` from `a/d` to the last point over `d` -/
def checkRes (R : List ℚ) (d a : ℤ) (l : List ℤ) : Bool :=
  posFl (10 ^ 40) d (addQ [1 / 10 ^ 16] R) a l && posFl (10 ^ 40) d (addQ [1 / 10 ^ 16] (R.map (-1 * ·))) a l

theorem checkRes_spec {R : List ℚ} {d a : ℤ} {l : List ℤ} (hd : 0 < d) (ha : 0 ≤ a) (h : checkRes R d a l = true) {s : ℝ}
    (h1 : (a : ℝ) / d ≤ s) (h2 : s < (l.getLastD a : ℤ) / d) : |evQ R s| ≤ 1 / 10 ^ 16 := by
  simp only [checkRes, Bool.and_eq_true] at h
  have u := posFl_spec hd h.1 ha h1 h2
  have v := posFl_spec hd h.2 ha h1 h2
  simp only [evQ_add, evQ_smul, evQ] at u v
  push_cast at u v
  rw [abs_le]
  constructor <;> linarith

/-- the subdivisions -/
def from80 : List ℤ := [90, 100, 110, 120, 130, 140, 150, 161]
def from0 : List ℤ := [20, 40, 60, 80, 100, 120, 140, 161]

/-- the residual check of the piece `n` -/
def checkPiece (res : ℕ → List ℚ → List ℚ) (n : ℕ) (h : List ℚ) : Bool :=
  if n < 32 then checkRes (res n h) 160 80 from80 else checkRes (res n h) 160 0 from0

theorem checkPiece_spec {res : ℕ → List ℚ → List ℚ} {n : ℕ} {h : List ℚ} (hc : checkPiece res n h = true) (hn : 0 < n) {y : ℝ}
    (h1 : (n : ℝ) ≤ y) (h2 : n < 32 → y ≤ 2 * n) : |evQ (res n h) (n / y)| ≤ 1 / 10 ^ 16 := by
  have hn' : (0 : ℝ) < n := by exact_mod_cast hn
  have hy : 0 < y := lt_of_lt_of_le hn' h1
  have hs : (n : ℝ) / y ≤ 1 := (div_le_one hy).2 h1
  rw [checkPiece] at hc
  split_ifs at hc with h32
  · refine checkRes_spec (by norm_num) (by norm_num) hc ?_ ?_
    · rw [le_div_iff₀ hy]; have := h2 h32; push_cast; linarith
    · simp only [from80, List.getLastD]; norm_num; linarith
  · refine checkRes_spec (by norm_num) (by norm_num) hc ?_ ?_
    · simp only [Int.cast_zero, zero_div]; positivity
    · simp only [from0, List.getLastD]; norm_num; linarith

/-- From a neighbouring piece to the end of the next one. -/
theorem link {h hp v κp κ : ℝ} (hk0 : 0 ≤ κp) (hk : κp ≤ κ) (h1 : |hp - v| ≤ κp * v) (h2 : |h - hp| * (1 + κp) ≤ (κ - κp) * hp) :
    |h - v| ≤ κ * v := by
  have a1 : hp ≤ (1 + κp) * v := by have := (abs_le.1 h1).2; linarith
  have a2 : |h - hp| * (1 + κp) ≤ (κ - κp) * v * (1 + κp) := by
    calc _ ≤ _ := h2
      _ ≤ (κ - κp) * ((1 + κp) * v) := mul_le_mul_of_nonneg_left a1 (by linarith)
      _ = _ := by ring
  have a3 : |h - hp| ≤ (κ - κp) * v := le_of_mul_le_mul_right a2 (by linarith)
  calc |h - v| = |(h - hp) + (hp - v)| := by ring_nf
    _ ≤ _ := abs_add_le _ _
    _ ≤ κ * v := by linarith

/-- the same check on rationals -/
def close (h hp κp κ : ℚ) : Bool := decide (0 ≤ κp) && decide (κp ≤ κ) && decide (|h - hp| * (1 + κp) ≤ (κ - κp) * hp)

theorem close_spec {h hp κp κ : ℚ} {v : ℝ} (hc : close h hp κp κ = true) (h1 : |(hp : ℝ) - v| ≤ κp * v) : |(h : ℝ) - v| ≤ κ * v := by
  simp only [close, Bool.and_eq_true, decide_eq_true_eq] at hc
  refine link (by exact_mod_cast hc.1.1) (by exact_mod_cast hc.1.2) h1 ?_
  exact_mod_cast hc.2

/-! ### `dN` -/

def gD : ℕ → List ℚ := gTab tabD endD
def kD (n : ℕ) : ℚ := (n / 2 + 1 : ℕ) / 10 ^ 16

/-- the piece `n` is right -/
def GoodD (n : ℕ) : Prop := ∀ y : ℝ, (n : ℝ) ≤ y → (n < 32 → y ≤ 2 * n) → |evQ (gD n) (n / y) - dN y| ≤ kD n * dN y

theorem kD_ge (n : ℕ) : (1 / 10 ^ 16 : ℝ) ≤ kD n := by
  unfold kD; push_cast
  apply div_le_div_of_nonneg_right _ (by positivity)
  have : (0 : ℝ) ≤ ((n / 2 : ℕ) : ℝ) := Nat.cast_nonneg _
  linarith

theorem goodD_of_left {n : ℕ} (hn : 0 < n) (hc : checkPiece resD n (gD n) = true)
    (h0 : |((evalQ (gD n) 1 : ℚ) : ℝ) - dN n| ≤ kD n * dN n) : GoodD n := by
  intro y h1 h2
  have hn' : (0 : ℝ) < n := by exact_mod_cast hn
  have hg : ∀ w, HasDerivAt (fun w => evQ (gD n) (n * w)) (n * evQ (derQ (gD n)) (n * w)) w := by
    intro w
    have := (hasDerivAt_evQ (gD n) (n * w)).comp w ((hasDerivAt_id w).const_mul (n : ℝ))
    exact this.congr_deriv (by ring)
  have := panelD (a := n) (b := y) (κ := kD n) hn' hg ?_ ?_ h1 le_rfl
  · rwa [mul_one_div] at this
  · intro z hz1 hz2
    refine le_trans ?_ (kD_ge n)
    have hz0 : z ≠ 0 := (lt_of_lt_of_le hn' hz1).ne'
    have := checkPiece_spec hc hn hz1 (fun h => hz2.trans (h2 h))
    simp only [resD, evQ_add, evQ_mul, evQ] at this
    push_cast at this
    simp only [mul_one_div]
    refine le_of_eq_of_le (congrArg abs ?_) this
    have hn0 := hn'.ne'
    field_simp
    ring
  · have e : (n : ℝ) * (1 / n) = ((1 : ℚ) : ℝ) := by push_cast; field_simp
    simp only [e]
    rwa [evQ_evalQ]

/-- the step from the piece `p` to the piece `n` -/
def stepDc (p n : ℕ) : Bool :=
  decide (0 < p) && decide (p ≤ n) && decide (n ≤ 2 * p) && checkPiece resD n (gD n) &&
    close (evalQ (gD n) 1) (evalQ (gD p) (p / n)) (kD p) (kD n)

theorem stepD {p n : ℕ} (h : GoodD p) (hc : stepDc p n = true) : GoodD n := by
  simp only [stepDc, Bool.and_eq_true, decide_eq_true_eq] at hc
  obtain ⟨⟨⟨⟨h1, h2⟩, h3⟩, h4⟩, h5⟩ := hc
  refine goodD_of_left (by omega) h4 (close_spec h5 ?_)
  have := h n (by exact_mod_cast h2) (fun _ => by exact_mod_cast h3)
  rw [← evQ_evalQ]; push_cast; exact this

/-- `dN y / y` near 0: `2 Σ (-2y)^n/(2n+1)!!` -/
def qL : ℕ → ℕ → ℚ → List ℚ
  | 0, _, _ => []
  | k + 1, n, t => t :: qL k (n + 1) (t * -2 / (2 * n + 3))

def qD : List ℚ := qL 25 0 2

theorem qD_res : checkRes (addQ (0 :: derQ qD) (addQ (mulQ [1 / 2, 1] qD) [-1])) 80 0
    [10, 20, 30, 40, 50, 60, 70, 80, 90, 100, 110, 120, 130, 140, 150, 161] = true := by decide +kernel

theorem dN_two : |((2 * evalQ qD 2 : ℚ) : ℝ) - dN 2| ≤ ((1 / 10 ^ 16 : ℚ) : ℝ) * dN 2 := by
  have := startD (b := 2) (κ := 1 / 10 ^ 16) (fun y => hasDerivAt_evQ qD y) ?_ (y := 2) (by norm_num) le_rfl
  · have e := evQ_evalQ qD 2
    push_cast at e ⊢
    rwa [e] at this
  · intro y h1 h2
    have := checkRes_spec (by norm_num) (by norm_num) qD_res (s := y) (by simpa using h1) (by simp only [List.getLastD]; norm_num; linarith)
    simp only [evQ_add, evQ_mul, evQ] at this
    push_cast at this
    convert this using 2
    ring

theorem goodD_2 : GoodD 2 := by
  refine goodD_of_left (by norm_num) (by decide +kernel) ?_
  exact close_spec (hp := 2 * evalQ qD 2) (κp := 1 / 10 ^ 16) (by decide +kernel) (by exact_mod_cast dN_two)

theorem goodD_tab : ∀ n : ℕ, 0 < n → n ≤ 16 → GoodD (2 * n) := by
  have h1 := goodD_2
  have h2 : GoodD 4 := stepD (p := 2) h1 (by decide +kernel)
  have h3 : GoodD 6 := stepD (p := 4) h2 (by decide +kernel)
  have h4 : GoodD 8 := stepD (p := 4) h2 (by decide +kernel)
  have h5 : GoodD 10 := stepD (p := 6) h3 (by decide +kernel)
  have h6 : GoodD 12 := stepD (p := 6) h3 (by decide +kernel)
  have h7 : GoodD 14 := stepD (p := 8) h4 (by decide +kernel)
  have h8 : GoodD 16 := stepD (p := 8) h4 (by decide +kernel)
  have h9 : GoodD 18 := stepD (p := 10) h5 (by decide +kernel)
  have h10 : GoodD 20 := stepD (p := 10) h5 (by decide +kernel)
  have h11 : GoodD 22 := stepD (p := 12) h6 (by decide +kernel)
  have h12 : GoodD 24 := stepD (p := 12) h6 (by decide +kernel)
  have h13 : GoodD 26 := stepD (p := 14) h7 (by decide +kernel)
  have h14 : GoodD 28 := stepD (p := 14) h7 (by decide +kernel)
  have h15 : GoodD 30 := stepD (p := 16) h8 (by decide +kernel)
  have h16 : GoodD 32 := stepD (p := 16) h8 (by decide +kernel)
  intro n hn hn'
  interval_cases n <;> assumption

/-- every even `n` -/
theorem goodD {n : ℕ} (hn : 0 < n) {y : ℝ} (h1 : ((2 * n : ℕ) : ℝ) ≤ y) (h2 : 2 * n < 32 → y ≤ 2 * (2 * n : ℕ)) :
    |evQ (gD (2 * n)) ((2 * n : ℕ) / y) - dN y| ≤ 2 / 10 ^ 15 * dN y := by
  have hy0 : 0 ≤ y := le_trans (Nat.cast_nonneg _) h1
  have key : ∀ m : ℕ, m ≤ 16 → (kD (2 * m) : ℝ) ≤ 2 / 10 ^ 15 := by
    intro m hm
    unfold kD
    rw [Nat.mul_div_cancel_left _ (by norm_num)]
    have : (m : ℝ) ≤ 16 := by exact_mod_cast hm
    push_cast
    rw [div_le_div_iff₀ (by positivity) (by positivity)]
    nlinarith
  by_cases hn' : n ≤ 16
  · exact (goodD_tab n hn hn' y h1 h2).trans (mul_le_mul_of_nonneg_right (key n hn') (dN_nonneg hy0))
  · push Not at hn'
    have h16 : (32 : ℝ) ≤ y := le_trans (by exact_mod_cast (by omega : 32 ≤ 2 * n)) h1
    have := (goodD_tab 16 (by norm_num) le_rfl y (by push_cast; linarith) (by norm_num)).trans
      (mul_le_mul_of_nonneg_right (key 16 le_rfl) (dN_nonneg hy0))
    have e : evQ (gD (2 * n)) ((2 * n : ℕ) / y) = evQ (gD (2 * 16)) ((2 * 16 : ℕ) / y) := ?_
    · rw [e]; exact this
    unfold gD gTab
    rw [if_neg (by omega), if_neg (by norm_num), evQ_scaleQ, evQ_scaleQ]
    have : (n : ℝ) ≠ 0 := by positivity
    congr 1; push_cast; field_simp

/-! ### `eN` -/

def gE : ℕ → List ℚ := gTab tabE endE
def kE (n : ℕ) : ℚ := (20 - n / 2 : ℕ) / 10 ^ 16

def GoodE (n : ℕ) : Prop := ∀ y : ℝ, (n : ℝ) ≤ y → (n < 32 → y ≤ 2 * n) → |evQ (gE n) (n / y) - eN y| ≤ kE n * eN y

theorem kE_ge {n : ℕ} (hn : n ≤ 32) : (1 / 10 ^ 16 : ℝ) ≤ kE n := by
  unfold kE; push_cast
  apply div_le_div_of_nonneg_right _ (by positivity)
  have : 1 ≤ 20 - n / 2 := by omega
  exact_mod_cast this

theorem hgE (n : ℕ) (w : ℝ) : HasDerivAt (fun w => evQ (gE n) (n * w)) (n * evQ (derQ (gE n)) (n * w)) w := by
  have := (hasDerivAt_evQ (gE n) (n * w)).comp w ((hasDerivAt_id w).const_mul (n : ℝ))
  exact this.congr_deriv (by ring)

theorem hRE {n : ℕ} (hn : 0 < n) (hn2 : n ≤ 32) (hc : checkPiece resE n (gE n) = true) {z : ℝ} (hz1 : (n : ℝ) ≤ z) (h2 : n < 32 → z ≤ 2 * n) :
    |-(1 / 2) * (1 / z) * evQ (gE n) (n * (1 / z)) - (1 / z) ^ 2 * (n * evQ (derQ (gE n)) (n * (1 / z))) - evQ (gE n) (n * (1 / z)) + 1| ≤ (kE n : ℝ) := by
  have hn' : (0 : ℝ) < n := by exact_mod_cast hn
  refine le_trans ?_ (kE_ge hn2)
  have hz0 : z ≠ 0 := (lt_of_lt_of_le hn' hz1).ne'
  have := checkPiece_spec hc hn hz1 h2
  simp only [resE, evQ_add, evQ_mul, evQ_smul, evQ] at this
  push_cast at this
  simp only [mul_one_div]
  refine le_of_eq_of_le (congrArg abs ?_) this
  have hn0 := hn'.ne'
  field_simp
  ring

theorem goodE_32 : GoodE 32 := by
  intro y h1 _
  have := lastE (a := (32 : ℕ)) (κ := kE 32) (by norm_num) (hgE 32) (fun z hz => hRE (by norm_num) le_rfl (by decide +kernel) hz (by norm_num)) h1
  rwa [mul_one_div] at this

/-- the step from the piece `p` to the piece `n`, with `p` beginning at or before the end of `n` -/
def stepEc (p n : ℕ) : Bool :=
  decide (0 < n) && decide (n < 32) && decide (p ≤ 2 * n) && decide (n ≤ p) && checkPiece resE n (gE n) &&
    close (evalQ (gE n) (1 / 2)) (evalQ (gE p) (p / (2 * n))) (kE p) (kE n)

theorem stepE {p n : ℕ} (h : GoodE p) (hc : stepEc p n = true) : GoodE n := by
  simp only [stepEc, Bool.and_eq_true, decide_eq_true_eq] at hc
  obtain ⟨⟨⟨⟨⟨h0, h1⟩, h2⟩, h3⟩, h4⟩, h5⟩ := hc
  intro y k1 k2
  have hn' : (0 : ℝ) < n := by exact_mod_cast h0
  have := panelE (a := n) (b := 2 * n) (κ := kE n) hn' (hgE n) (fun z z1 z2 => hRE h0 (by omega) h4 z1 (fun _ => z2)) ?_ k1 (k2 h1)
  · rwa [mul_one_div] at this
  · have e : (n : ℝ) * (1 / (2 * n)) = ((1 / 2 : ℚ) : ℝ) := by push_cast; field_simp
    simp only [e]
    rw [evQ_evalQ]
    refine close_spec h5 ?_
    have := h (2 * n) (by exact_mod_cast h2) (fun _ => by have : (n : ℝ) ≤ p := by exact_mod_cast h3
                                                          linarith)
    rw [← evQ_evalQ]; push_cast; exact this

theorem goodE_tab : ∀ n : ℕ, 0 < n → n ≤ 16 → GoodE (2 * n) := by
  have h16 := goodE_32
  have h15 : GoodE 30 := stepE (p := 32) h16 (by decide +kernel)
  have h14 : GoodE 28 := stepE (p := 32) h16 (by decide +kernel)
  have h13 : GoodE 26 := stepE (p := 32) h16 (by decide +kernel)
  have h12 : GoodE 24 := stepE (p := 32) h16 (by decide +kernel)
  have h11 : GoodE 22 := stepE (p := 32) h16 (by decide +kernel)
  have h10 : GoodE 20 := stepE (p := 32) h16 (by decide +kernel)
  have h9 : GoodE 18 := stepE (p := 32) h16 (by decide +kernel)
  have h8 : GoodE 16 := stepE (p := 32) h16 (by decide +kernel)
  have h7 : GoodE 14 := stepE (p := 28) h14 (by decide +kernel)
  have h6 : GoodE 12 := stepE (p := 24) h12 (by decide +kernel)
  have h5 : GoodE 10 := stepE (p := 20) h10 (by decide +kernel)
  have h4 : GoodE 8 := stepE (p := 16) h8 (by decide +kernel)
  have h3 : GoodE 6 := stepE (p := 12) h6 (by decide +kernel)
  have h2 : GoodE 4 := stepE (p := 8) h4 (by decide +kernel)
  have h1 : GoodE 2 := stepE (p := 4) h2 (by decide +kernel)
  intro n hn hn'
  interval_cases n <;> assumption

theorem goodE {n : ℕ} (hn : 0 < n) {y : ℝ} (h1 : ((2 * n : ℕ) : ℝ) ≤ y) (h2 : 2 * n < 32 → y ≤ 2 * (2 * n : ℕ)) :
    |evQ (gE (2 * n)) ((2 * n : ℕ) / y) - eN y| ≤ 2 / 10 ^ 15 * eN y := by
  have hy0 : 0 ≤ y := le_trans (Nat.cast_nonneg _) h1
  have key : ∀ m : ℕ, (kE m : ℝ) ≤ 2 / 10 ^ 15 := by
    intro m
    unfold kE
    have : ((20 - m / 2 : ℕ) : ℝ) ≤ 20 := by exact_mod_cast Nat.sub_le _ _
    push_cast [-Nat.cast_sub] at this ⊢
    rw [div_le_div_iff₀ (by positivity) (by positivity)]
    nlinarith
  by_cases hn' : n ≤ 16
  · exact (goodE_tab n hn hn' y h1 h2).trans (mul_le_mul_of_nonneg_right (key _) (eN_nonneg hy0))
  · push Not at hn'
    have h16 : (32 : ℝ) ≤ y := le_trans (by exact_mod_cast (by omega : 32 ≤ 2 * n)) h1
    have := (goodE_tab 16 (by norm_num) le_rfl y (by push_cast; linarith) (by norm_num)).trans
      (mul_le_mul_of_nonneg_right (key _) (eN_nonneg hy0))
    have e : evQ (gE (2 * n)) ((2 * n : ℕ) / y) = evQ (gE (2 * 16)) ((2 * 16 : ℕ) / y) := ?_
    · rw [e]; exact this
    unfold gE gTab
    rw [if_neg (by omega), if_neg (by norm_num), evQ_scaleQ, evQ_scaleQ]
    have : (n : ℝ) ≠ 0 := by positivity
    congr 1; push_cast; field_simp

end FdTail
end Npplus
