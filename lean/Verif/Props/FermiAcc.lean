import Verif.Props.Fermi
import Verif.Lemmas.FermiCheb
import Verif.Lemmas.RatPoly
import Mathlib.Analysis.SpecialFunctions.Gamma.Beta
import Mathlib.Analysis.Real.Pi.Bounds
import Mathlib.Analysis.Complex.ExponentialBounds

/-!
# C79: accuracy of the Fermi-Dirac functions for x < 2
-/

set_option linter.unusedSectionVars false
namespace Npplus
open Npplus.Fermi Npplus.Spec Cheb

namespace Cheb

theorem evQ_reverse (c : List ℚ) (z : ℝ) : evQ c.reverse z = decPoly c z := by
  induction c using List.reverseRecOn with
  | nil => simp [evQ, decPoly]
  | append_singleton c a ih => rw [List.reverse_append, List.reverse_singleton, List.singleton_append, evQ, ih, decPoly_snoc]; ring

/-! ### the sum as a rational polynomial -/

/-- alternating signs -/
def altQ : ℚ → List ℤ → List ℚ
  | _, [] => []
  | c, x :: L => c * x :: altQ (-c) L

theorem evQ_alt (L : List ℤ) (c : ℚ) (u : ℝ) : evQ (altQ c L) u = c * evZ L (-u) := by
  induction L generalizing c with
  | nil => simp [altQ, evQ, evZ]
  | cons x L ih => simp only [altQ, evQ, evZ, ih]; push_cast; ring

/-- `(2 Σ d_n (-ρ)^n - d_0)/D` -/
def sPoly (D : ℚ) : List ℤ → List ℚ
  | [] => []
  | d :: L => (1 / D) * d :: altQ (-2 / D) L

theorem evQ_sPoly (D : ℚ) (d : ℤ) (L : List ℤ) (u : ℝ) : evQ (sPoly D (d :: L)) u = (2 * evZ (d :: L) (-u) - d) / D := by
  simp only [sPoly, evQ, evQ_alt, evZ]; push_cast; ring

/-- check of a table of `D k^(-e/2)` -/
def closeCheck (D : ℤ) (e : ℕ) : List ℤ → ℕ → Bool
  | [], _ => true
  | y :: r, k => decide (0 ≤ y) && decide (y * y * (k : ℤ) ^ e ≤ D * D) && decide (D * D ≤ (y + 1) * (y + 1) * (k : ℤ) ^ e) &&
      closeCheck D e r (k + 1)

theorem close_of_check {D : ℤ} {e : ℕ} (hD : 0 < D) : ∀ {r : List ℤ} {k : ℕ}, 0 < k → closeCheck D e r k = true →
    Close (D : ℝ) ((e : ℝ) / 2) r k
  | [], _, _, _ => trivial
  | y :: r, k, hk, h => by
    simp only [closeCheck, Bool.and_eq_true, decide_eq_true_eq] at h
    obtain ⟨⟨⟨h1, h2⟩, h3⟩, h4⟩ := h
    refine ⟨?_, close_of_check hD (by omega) h4⟩
    have hk' : (0 : ℝ) < k := by exact_mod_cast hk
    have hD' : (0 : ℝ) < D := by exact_mod_cast hD
    have h1' : (0 : ℝ) ≤ y := by exact_mod_cast h1
    have h2' : (y : ℝ) * y * (k : ℝ) ^ e ≤ D * D := by exact_mod_cast h2
    have h3' : (D : ℝ) * D ≤ (y + 1) * (y + 1) * (k : ℝ) ^ e := by exact_mod_cast h3
    set q := (1 / (k : ℝ)) ^ ((e : ℝ) / 2) with hq
    have hq0 : 0 < q := by positivity
    have hqq : q * q * (k : ℝ) ^ e = 1 := by
      rw [hq, ← Real.rpow_add (by positivity), add_halves, Real.rpow_natCast, ← mul_pow]
      field_simp
      simp
    have hke : 0 < (k : ℝ) ^ e := by positivity
    rw [abs_le]
    constructor
    · have : (y : ℝ) ≤ D * q := by
        rw [← abs_of_nonneg h1', ← abs_of_nonneg (by positivity : 0 ≤ D * q), ← sq_le_sq]
        have : (y * y) * (k : ℝ) ^ e ≤ ((D * q) * (D * q)) * (k : ℝ) ^ e := by
          calc (y * y : ℝ) * (k : ℝ) ^ e ≤ D * D * (q * q * (k : ℝ) ^ e) := by rw [hqq]; linarith
            _ = _ := by ring
        nlinarith [le_of_mul_le_mul_right this hke]
      linarith
    · have : D * q ≤ (y : ℝ) + 1 := by
        rw [← abs_of_nonneg (by linarith : 0 ≤ (y : ℝ) + 1), ← abs_of_nonneg (by positivity : 0 ≤ D * q), ← sq_le_sq]
        have : ((D * q) * (D * q)) * (k : ℝ) ^ e ≤ ((y + 1) * (y + 1)) * (k : ℝ) ^ e := by
          calc ((D * q) * (D * q)) * (k : ℝ) ^ e = D * D * (q * q * (k : ℝ) ^ e) := by ring
            _ ≤ _ := by rw [hqq]; linarith
        nlinarith [le_of_mul_le_mul_right this hke]
      linarith

/-! ### the certificate of one function -/

/-- `10^60 k^(-1/2)` rounded down, `k = 1..49` -/
def rTab1 : List ℤ := [
  1000000000000000000000000000000000000000000000000000000000000,
  707106781186547524400844362104849039284835937688474036588339,
  577350269189625764509148780501957455647601751270126876018602,
  500000000000000000000000000000000000000000000000000000000000,
  447213595499957939281834733746255247088123671922305144854179,
  408248290463863016366214012450981898660991246776111688072115,
  377964473009227227214516536234180060815751311868921454338333,
  353553390593273762200422181052424519642417968844237018294169,
  333333333333333333333333333333333333333333333333333333333333,
  316227766016837933199889354443271853371955513932521682685750,
  301511344577763622646812066970062425811553504144486690641698,
  288675134594812882254574390250978727823800875635063438009301,
  277350098112614561009170866728499688173176659526557400977727,
  267261241912424384684553480879753521554001414841337639021696,
  258198889747161125678617693318826640722194780352772721772504,
  250000000000000000000000000000000000000000000000000000000000,
  242535625036332973518906462116122177949835248551389437317566,
  235702260395515841466948120701616346428278645896158012196113,
  229415733870561765907209578097874508375631785538549733520544,
  223606797749978969640917366873127623544061835961152572427089,
  218217890235992381266097485415619451856402694131808185838440,
  213200716355610434298437732433839376390374016064169870618440,
  208514414057074762678149481050551909565074219213223015064578,
  204124145231931508183107006225490949330495623388055844036057,
  200000000000000000000000000000000000000000000000000000000000,
  196116135138184031924162465731645461137068113311522938753268,
  192450089729875254836382926833985818549200583756708958672867,
  188982236504613613607258268117090030407875655934460727169166,
  185695338177051863146576223846218260561900695229130649575185,
  182574185835055371152323260933600711317581564999327751408964,
  179605302026774900713531332223179016789561076695819816257046,
  176776695296636881100211090526212259821208984422118509147084,
  174077655955697838177291256612694827824856498726751283869693,
  171498585142508837378651555221928914015335245143705057483823,
  169030850945703315501923665473189058526157178022695437796563,
  166666666666666666666666666666666666666666666666666666666666,
  164398987305357288891883357978434244921215407967200302335652,
  162221421130762538164478746880374848032516421669594066970383,
  160128153805087133483253669767687037463409230204914264319306,
  158113883008418966599944677221635926685977756966260841342875,
  156173761888606065524102870112727152793180978844415094769006,
  154303349962091910261094462763999920421552483501389203564556,
  152498570332604666333583953433395386695975960927529994648033,
  150755672288881811323406033485031212905776752072243345320849,
  149071198499985979760611577915418415696041223974101714951393,
  147441956154897133457925137535347154460777137476593222451091,
  145864991497894555849699392533720190648098797042581410116704,
  144337567297406441127287195125489363911900437817531719004650,
  142857142857142857142857142857142857142857142857142857142857]

/-- `10^60 k^(-3/2)` rounded down, `k = 1..49` -/
def rTab3 : List ℤ := [
  1000000000000000000000000000000000000000000000000000000000000,
  353553390593273762200422181052424519642417968844237018294169,
  192450089729875254836382926833985818549200583756708958672867,
  125000000000000000000000000000000000000000000000000000000000,
  89442719099991587856366946749251049417624734384461028970835,
  68041381743977169394369002075163649776831874462685281345352,
  53994924715603889602073790890597151545107330266988779191190,
  44194173824159220275052772631553064955302246105529627286771,
  37037037037037037037037037037037037037037037037037037037037,
  31622776601683793319988935444327185337195551393252168268575,
  27410122234342147513346551542732947801050318558589699149245,
  24056261216234406854547865854248227318650072969588619834108,
  21334622931739581616090066671423052936398204578965953921363,
  19090088708030313191753820062839537253857243917238402787264,
  17213259316477408378574512887921776048146318690184848118166,
  15625000000000000000000000000000000000000000000000000000000,
  14266801472725469030523909536242481055872661679493496312798,
  13094570021973102303719340038978685912682146994231000677561,
  12074512308976935047747872531467079388191146607292091237923,
  11180339887498948482045868343656381177203091798057628621354,
  10391328106475827679337975495981878659828699720562294563735,
  9690941652527747013565351474265426199562455275644085028110,
  9065844089438033159919542654371822155003226922314044133242,
  8505172717997146174296125259395456222103984307835660168169,
  8000000000000000000000000000000000000000000000000000000000,
  7542928274545539689390864066601748505271850511981651490510,
  7127781101106490919866034327184659946266688287285516987883,
  6749365589450486200259223861324643943138416283373597398898,
  6403287523346615970571593925731664157306920525142436192247,
  6085806194501845705077442031120023710586052166644258380298,
  5793719420218545184307462329779968283534228280510316653453,
  5524271728019902534381596578944133119412780763191203410846,
  5275080483505995096281553230687722055298681779598523753627,
  5044076033603201099372104565350850412215742504226619337759,
  4829452884162951871483533299233973100747347943505583937044,
  4629629629629629629629629629629629629629629629629629629629,
  4443215873117764564645496161579303916789605620735143306368,
  4268984766599014162223124917904601264013590043936685972904,
  4105850097566336755980863327376590704189980261664468315879,
  3952847075210474164998616930540898167149443924156521033571,
  3809116143624538183514704149090906165687340947424758409000,
  3673889284811712149073677684857140962417916273842600084870,
  3546478379828015496129859382171985737115720021570464991814,
  3426265279292768439168318942841618475131289819823712393655,
  3312693299999688439124701731453742571023138310535593665586,
  3205259916410807249085329076855372923060372553838983096762,
  3103510457402011826589348777313195545704229724310242768440,
  3007032652029300856818483231781028414831259121198577479263,
  2915451895043731778425655976676384839650145772594752186588]

/-- `10^60 k^(-5/2)` rounded down, `k = 1..49` -/
def rTab5 : List ℤ := [
  1000000000000000000000000000000000000000000000000000000000000,
  176776695296636881100211090526212259821208984422118509147084,
  64150029909958418278794308944661939516400194585569652890955,
  31250000000000000000000000000000000000000000000000000000000,
  17888543819998317571273389349850209883524946876892205794167,
  11340230290662861565728167012527274962805312410447546890892,
  7713560673657698514581970127228164506443904323855539884455,
  5524271728019902534381596578944133119412780763191203410846,
  4115226337448559670781893004115226337448559670781893004115,
  3162277660168379331998893544432718533719555139325216826857,
  2491829294031104319395141049339358891004574414417245377204,
  2004688434686200571212322154520685609887506080799051652842,
  1641124840903044739699235897801773302799861890689688763181,
  1363577764859308085125272861631395518132660279802743056233,
  1147550621098493891904967525861451736543087912678989874544,
  976562500000000000000000000000000000000000000000000000000,
  839223616042674648854347619778969473874862451734911547811,
  727476112331839016873296668832149217371230388568388926531,
  635500647840891318302519606919319967799534031962741644101,
  559016994374947424102293417182819058860154589902881431067,
  494825147927420365682760737903898983801366653360109264939,
  440497347842170318798425067012064827252838876165640228550,
  394167134323392746083458376277035745869705518361480179706,
  354382196583214423929005219141477342587666012826485840340,
  320000000000000000000000000000000000000000000000000000000,
  290112625944059218822725541023144173279686558153140441942,
  263991892633573737772816086192024442454321788417982110662,
  241048771051803078580686566475880140826372010120485621389,
  220803018046435033467985997439022901976100707763532282491,
  202860206483394856835914734370667457019535072221475279343,
  186894174845759522074434268702579622049491234855171504950,
  172633491500621954199424893092004159981649398849725106588,
  159850923742605912008531916081446122887838841806015871322,
  148355177458917679393297193098554423888698308947841745228,
  137984368118941482042386665692399231449924226957302398201,
  128600823045267489711934156378600823045267489711934156378,
  120086915489669312557986382745386592345665016776625494766,
  112341704384184583216398024155384243789831316945702262444,
  105278207629906070666175982753245915492050775940114572202,
  98821176880261854124965423263522454178736098103913025839,
  92905271795720443500358637782705028431398559693286790463,
  87473554400278860692230421068027165771855149377204763925,
  82476241391349197584415334469115947374784186548150348646,
  77869665438472009981098157791854965343892950450538918037,
  73615406666659743091660038476749834911625295789679859235,
  69679563400234940197507153844682020066529838126934415147,
  66032137391532166523177633559855224376685738815111548264,
  62646513583943767850385067328771425308984565024970364151,
  59499018266198607722972570952579282441839709644790860950]

/-- `10^60 k^(-7/2)` rounded down, `k = 1..49` -/
def rTab7 : List ℤ := [
  1000000000000000000000000000000000000000000000000000000000000,
  88388347648318440550105545263106129910604492211059254573542,
  21383343303319472759598102981553979838800064861856550963651,
  7812500000000000000000000000000000000000000000000000000000,
  3577708763999663514254677869970041976704989375378441158833,
  1890038381777143594288027835421212493800885401741257815148,
  1101937239093956930654567161032594929491986331979362840636,
  690533966002487816797699572368016639926597595398900426355,
  457247370827617741197988111568358481938728852309099222679,
  316227766016837933199889354443271853371955513932521682685,
  226529935821009483581376459030850808273143128583385943382,
  167057369557183380934360179543390467490625506733254304403,
  126240372377157287669171992138597946369220145437668366398,
  97398411775664863223233775830813965580904305700195932588,
  76503374739899592793664501724096782436205860845265991636,
  61035156250000000000000000000000000000000000000000000000,
  49366095061333802873785154104645263169109555984406561635,
  40415339573991056492960926046230512076179466031577162585,
  33447402517941648331711558258911577252607054313828507584,
  27950849718747371205114670859140952943007729495144071553,
  23563102282258112651560035138280903990541269207624250711,
  20022606720098650854473866682366583056947221643892737661,
  17137701492321423742759059838131988950856761667890442595,
  14765924857633934330375217464228222607819417201103576680,
  12800000000000000000000000000000000000000000000000000000,
  11158177920925354570104828500890160510757175313582324690,
  9777477504947175473067262451556460831641547719184522617,
  8608884680421538520738805945567147886656143218588772192,
  7613897174015001154068482670311134550900024405639044223,
  6762006882779828561197157812355581900651169074049175978,
  6028844349863210389497879635567084582241652737263596933,
  5394796609394436068732027909125129999426543714053909580,
  4843967386139573091167633820649882511752692175939874888,
  4363387572321108217449917444075130114373479674936521918,
  3942410517684042344068190448354263755712120770208639948,
  3572245084590763603109282121627800640146319158664837677,
  3245592310531603042107740074199637630963919372341229588,
  2956360641689067979378895372510111678679771498571112169,
  2699441221279642837594255968031946551078225024105501851,
  2470529422006546353124135581588061354468402452597825645,
  2265982238920010817081917994700122644668257553494799767,
  2082703676197115730767390977810170613615598794695351522,
  1918052125380213897311984522537580171506608989491868573,
  1769765123601636590479503586178521939633930692057702682,
  1635897925925772068703556410594440775813895461992885760,
  1514773117396411743424068561840913479707170394063791633,
  1404939093436854606876119862975643071844377421598118048,
  1305135699665495163549688902682738027270511771353549253,
  1214265678902012402509644305154679233506932849893691039]


/-- scaling of the tables -/
def D60 : ℤ := 10 ^ 60
/-- the range of ρ -/
def rhoMax : ℚ := 487 / 1000
/-- bound of the truncation error and of the rounding of the tables -/
def eta : ℚ := 1 / 10 ^ 13 / 4
/-- lower bound of `sqrt π` -/
def gLo : ℚ := 1.7724538509055160272
/-- upper bound of `sqrt π` -/
def gHi : ℚ := 1.7724538509055160274

/-- polynomials in ρ: `anum`, `aden` times `(1-ρ)^14` -/
def sub8 (c : List ℚ) : List ℚ := (subst [0, 4] [1, -2, 1] (List.replicate (8 - c.length) 0 ++ c).reverse).1

/-- `sub8` is meaningful for at most eight coefficients. -/
theorem sub8_spec {c : List ℚ} (hc : c.length ≤ 8) {ρ z : ℝ} (hz : z * (1 - ρ) ^ 2 = 4 * ρ) :
    evQ (sub8 c) ρ * (1 - ρ) ^ 2 = decPoly c z * ((1 - ρ) ^ 2) ^ 8 := by
  have hB : evQ [1, -2, 1] ρ = (1 - ρ) ^ 2 := by simp only [evQ]; push_cast; ring
  have h := (subst_spec [0, 4] [1, -2, 1] (List.replicate (8 - c.length) 0 ++ c).reverse ρ z
    (by rw [hB, hz]; simp only [evQ]; push_cast; ring)).2
  rw [hB, evQ_reverse] at h
  rw [sub8, h]
  have hpad : ∀ k, decPoly (List.replicate k 0 ++ c) z = decPoly c z := by
    intro k
    rw [← evQ_reverse, ← evQ_reverse, List.reverse_append, List.reverse_replicate]
    generalize c.reverse = d
    induction d with
    | nil =>
      induction k with
      | zero => rfl
      | succ k ih => simp only [List.nil_append, List.replicate_succ, evQ] at ih ⊢; rw [ih]; simp
    | cons a d ih => simp only [List.cons_append, evQ, ih]
  rw [hpad]
  congr 2
  simp; omega

/-- upper inequality: `(1+ε) cs gLo (1-ρ) (S-η) aden - (1+ρ) anum` -/
def upPoly (eps cs : ℚ) (S : List ℚ) (num den : List ℚ) : List ℚ :=
  addQ ((mulQ [1, -1] (mulQ (addQ S [-eta]) (sub8 den))).map ((1 + eps) * cs * gLo * ·)) ((mulQ [1, 1] (sub8 num)).map (-1 * ·))

/-- lower inequality: `(1+ρ) anum - (1-ε) cs gHi (1-ρ) (S+η) aden` -/
def loPoly (eps cs : ℚ) (S : List ℚ) (num den : List ℚ) : List ℚ :=
  addQ ((mulQ [1, -1] (mulQ (addQ S [eta]) (sub8 den))).map (-((1 - eps) * cs * gHi) * ·)) (mulQ [1, 1] (sub8 num))

/-- Everything that is checked by evaluation. -/
structure Cert (eps cs : ℚ) (e : ℕ) (r : List ℤ) (c : Coef) (pts : List ℚ) : Prop where
  len : r.length = 49
  close : closeCheck D60 e r 1 = true
  num : c.anum ≠ [] ∧ c.anum.all (fun a => decide (0 < a)) = true ∧ c.anum.length ≤ 8
  den : c.aden ≠ [] ∧ c.aden.all (fun a => decide (0 < a)) = true ∧ c.aden.length ≤ 8
  last : pts.getLastD 0 = rhoMax
  up : posOn ((upPoly eps cs (sPoly D60 (dots r 49 [1] [-1, 2])) c.anum c.aden).map (10 ^ 200 * ·)) 0 pts = true
  lo : posOn ((loPoly eps cs (sPoly D60 (dots r 49 [1] [-1, 2])) c.anum c.aden).map (10 ^ 200 * ·)) 0 pts = true

theorem absums_small : 2 * absums 49 [1] [-1, 2] + 1 ≤ 10 ^ 40 := by decide +kernel

theorem sqrt_pi_bounds : (gLo : ℝ) ≤ Real.sqrt Real.pi ∧ Real.sqrt Real.pi ≤ (gHi : ℝ) := by
  have h1 := Real.pi_gt_d20
  have h2 := Real.pi_lt_d20
  constructor
  · apply Real.le_sqrt_of_sq_le
    norm_num [gLo] at h1 ⊢; linarith
  · rw [Real.sqrt_le_left (by norm_num [gHi])]
    norm_num [gHi] at h2 ⊢; linarith

theorem exp_lt_of_lt_two {x : ℝ} (hx : x < 2) : Real.exp x < 7.4 := by
  have h1 : Real.exp x < Real.exp 2 := Real.exp_lt_exp.2 hx
  have h2 : Real.exp 2 = Real.exp 1 * Real.exp 1 := by rw [← Real.exp_add]; norm_num
  have h3 := Real.exp_one_lt_d9
  have h4 := Real.exp_pos 1
  nlinarith

theorem exists_rho {x : ℝ} (hx : Real.exp x < 7.4) : ∃ ρ : ℝ, 0 < ρ ∧ ρ < (rhoMax : ℚ) ∧ Real.exp x = 4 * ρ / (1 - ρ) ^ 2 := by
  set z := Real.exp x with hz
  have hz0 : 0 < z := Real.exp_pos x
  have hz2 : z < 7.4 := hx
  set q := Real.sqrt (1 + z) with hq
  have hqq : q * q = 1 + z := Real.mul_self_sqrt (by linarith)
  have hq1 : 1 < q := by
    rw [hq]; apply Real.lt_sqrt_of_sq_lt; linarith
  have hq2 : q < 2.8983 := by
    rw [hq, Real.sqrt_lt' (by norm_num)]; norm_num; norm_num at hz2; linarith
  refine ⟨(q - 1) / (q + 1), div_pos (by linarith) (by linarith), ?_, ?_⟩
  · rw [div_lt_iff₀ (by linarith)]
    norm_num [rhoMax] at hq2 ⊢
    linarith
  · have : 1 - (q - 1) / (q + 1) = 2 / (q + 1) := by field_simp; ring
    rw [this]
    have h : z = q * q - 1 := by linarith
    rw [h]
    have : q + 1 ≠ 0 := by linarith
    field_simp
    ring

/-- The last step, on real numbers. -/
theorem combine {z A Dn ρ S eta eps cs lo hi q h Γ F : ℝ} (hzp : 0 < z) (hp : 0 < 1 + ρ) (h1' : 0 < 1 - ρ) (hA : 0 < A) (hDn : 0 < Dn)
    (heps0 : 0 < eps) (heps1 : eps < 1) (hcs' : 0 < cs) (hgLo : 0 < lo) (g1 : lo ≤ q) (g2 : q ≤ hi) (heta0 : 0 < eta)
    (hh' : h * (1 + ρ) = 1 - ρ) (hG : Γ = cs * q) (hFlo : z * Γ * (h * (S - eta)) ≤ F) (hFhi : F ≤ z * Γ * (h * (S + eta)))
    (up' : (1 + ρ) * A < (1 + eps) * cs * lo * ((1 - ρ) * ((S - eta) * Dn)))
    (lo' : (1 - eps) * cs * hi * ((1 - ρ) * ((S + eta) * Dn)) < (1 + ρ) * A) : |z * A / Dn - F| ≤ eps * F := by
  have hSm : 0 < S - eta := by
    have h1 : 0 < (1 + eps) * cs * lo * ((1 - ρ) * ((S - eta) * Dn)) := lt_trans (mul_pos hp hA) up'
    have h2 : 0 < (1 - ρ) * ((S - eta) * Dn) := pos_of_mul_pos_right h1 (by positivity)
    have h3 := pos_of_mul_pos_right h2 h1'.le
    exact pos_of_mul_pos_left h3 hDn.le
  have hSp : 0 < S + eta := by linarith
  have u2 : z * A / Dn ≤ (1 + eps) * F := by
    rw [div_le_iff₀ hDn]
    have k1 : (1 + eps) * cs * lo * ((1 - ρ) * ((S - eta) * Dn)) ≤ (1 + eps) * cs * q * ((1 - ρ) * ((S - eta) * Dn)) := by
      gcongr
    have k2 : (1 + ρ) * A ≤ (1 + ρ) * ((1 + eps) * (cs * q) * (h * (S - eta)) * Dn) := by
      calc _ ≤ (1 + eps) * cs * q * ((1 - ρ) * ((S - eta) * Dn)) := by linarith
        _ = _ := by rw [← hh']; ring
    have k3 : A ≤ (1 + eps) * (cs * q) * (h * (S - eta)) * Dn := le_of_mul_le_mul_left k2 hp
    calc z * A ≤ z * ((1 + eps) * (cs * q) * (h * (S - eta)) * Dn) := mul_le_mul_of_nonneg_left k3 hzp.le
      _ = (1 + eps) * (z * Γ * (h * (S - eta))) * Dn := by rw [hG]; ring
      _ ≤ (1 + eps) * F * Dn := by gcongr
  have l2 : (1 - eps) * F ≤ z * A / Dn := by
    rw [le_div_iff₀ hDn]
    have hee : 0 < 1 - (eps : ℝ) := by linarith
    have k1 : (1 - eps) * cs * q * ((1 - ρ) * ((S + eta) * Dn)) ≤ (1 - eps) * cs * hi * ((1 - ρ) * ((S + eta) * Dn)) := by
      gcongr
    have k2 : (1 + ρ) * ((1 - eps) * (cs * q) * (h * (S + eta)) * Dn) ≤ (1 + ρ) * A := by
      calc _ = (1 - eps) * cs * q * ((1 - ρ) * ((S + eta) * Dn)) := by rw [← hh']; ring
        _ ≤ _ := by linarith
    have k3 := le_of_mul_le_mul_left k2 hp
    calc (1 - eps) * F * Dn ≤ (1 - eps) * (z * Γ * (h * (S + eta))) * Dn := by gcongr
      _ = z * ((1 - eps) * (cs * q) * (h * (S + eta)) * Dn) := by rw [hG]; ring
      _ ≤ z * A := mul_le_mul_of_nonneg_left k3 hzp.le
  rw [abs_le]
  constructor <;> linarith

theorem accuracy {eps cs : ℚ} {e : ℕ} {r : List ℤ} {c : Coef} {pts : List ℚ} (heps : 0 < eps ∧ eps < 1) (hcs : 0 < cs) (he : 0 < e)
    (hG : Real.Gamma ((e : ℝ) / 2) = cs * Real.sqrt Real.pi) (hc : Cert eps cs e r c pts) {x : ℝ} (hx : Real.exp x < 7.4) :
    |Real.exp x * decPoly c.anum (Real.exp x) / decPoly c.aden (Real.exp x) - fermiDirac ((e : ℝ) / 2 - 1) x| ≤
      (eps : ℝ) * fermiDirac ((e : ℝ) / 2 - 1) x := by
  obtain ⟨ρ, h0, hmax, hz⟩ := exists_rho hx
  have hmax' : ρ < 487 / 1000 := by norm_num [rhoMax] at hmax; linarith
  have h1 : ρ < 1 := by linarith
  have h1' : 0 < 1 - ρ := by linarith
  have hp : 0 < 1 + ρ := by linarith
  have hzp := Real.exp_pos x
  have he' : (0 : ℝ) < e := by exact_mod_cast he
  have hs : 0 < (e : ℝ) / 2 := by positivity
  set s := (e : ℝ) / 2 with hsdef
  set z := Real.exp x with hzdef
  set F := fermiDirac (s - 1) x with hF
  have hI := integral_bound hs h0 h1 (by rw [← hzdef]; exact hz) 48
  rw [← hzdef, ← hF] at hI
  have hcl : Close (D60 : ℝ) s r 1 := close_of_check (by norm_num [D60]) one_pos hc.close
  have hd := dots_close hcl (-ρ) (by rw [abs_neg, abs_of_pos h0]; linarith) 49 0 (by rw [hc.len])
  simp only [Nat.zero_add] at hd
  rw [show (tau 0).1 = [1] from rfl, show (tau 0).2 = [-1, 2] from rfl] at hd
  have hd0 := dot_close (D := (D60 : ℝ)) (s := s) [1] r 1 (by rw [hc.len]; decide) hcl
  rw [show (absum [1] : ℤ) = 1 by decide] at hd0
  rw [show (tau 0).1 = [1] from rfl] at hI
  set Sg := ∑ n ∈ Finset.range 49, (-ρ) ^ n * mom s (tau n).1 1 with hSg
  set m0 := mom s [1] 1 with hm0
  set S := evQ (sPoly D60 (dots r 49 [1] [-1, 2])) ρ with hS
  have hSeq : S * (D60 : ℝ) = 2 * evZ (dots r 49 [1] [-1, 2]) (-ρ) - dot [1] r := by
    rw [hS, show dots r 49 [1] [-1, 2] = dot [1] r :: dots r 48 [-1, 2] (step [1] [-1, 2]) from rfl, evQ_sPoly]
    have : (D60 : ℝ) ≠ 0 := by norm_num [D60]
    push_cast
    field_simp
  have hsm : (2 : ℝ) * (absums 49 [1] [-1, 2] : ℤ) + 1 ≤ 10 ^ 40 := by exact_mod_cast absums_small
  have hDv : (D60 : ℝ) = 10 ^ 60 := by norm_num [D60]
  have hGS : |(2 * Sg - m0) - S| ≤ 1 / 10 ^ 20 := by
    rw [hDv] at hd hd0 hSeq
    rw [abs_le] at hd hd0 ⊢
    push_cast at hd0
    constructor <;> nlinarith
  rw [abs_le] at hGS
  set G := 2 * Sg - m0 with hG'
  -- the truncation error
  have hpow : ρ ^ 49 ≤ 5 / 10 ^ 16 := by
    calc ρ ^ 49 ≤ (487 / 1000 : ℝ) ^ 49 := pow_le_pow_left₀ h0.le hmax'.le 49
      _ ≤ _ := by norm_num
  set h := (1 - ρ) / (1 + ρ) with hh
  have hhp : 0 < h := div_pos h1' hp
  have heta : (eta : ℝ) = 1 / 10 ^ 13 / 4 := by norm_num [eta]
  have htr : 2 * ρ ^ 49 / (1 - ρ) ≤ h * (1 / 10 ^ 14) := by
    rw [hh, div_mul_eq_mul_div, div_le_div_iff₀ h1' hp]
    have hp49 : 0 ≤ ρ ^ 49 := by positivity
    have a1 : 2 * ρ ^ 49 * (1 + ρ) ≤ 2 * (5 / 10 ^ 16) * (1487 / 1000) :=
      mul_le_mul (by linarith) (by linarith) hp.le (by positivity)
    have a2 : (513 / 1000 : ℝ) * (513 / 1000) ≤ (1 - ρ) * (1 - ρ) :=
      mul_le_mul (by linarith) (by linarith) (by norm_num) h1'.le
    calc _ ≤ _ := a1
      _ ≤ (513 / 1000 * (513 / 1000)) * (1 / 10 ^ 14) := by norm_num
      _ ≤ ((1 - ρ) * (1 - ρ)) * (1 / 10 ^ 14) := mul_le_mul_of_nonneg_right a2 (by norm_num)
      _ = _ := by ring
  have hΓ : 0 < Real.Gamma s := Real.Gamma_pos_of_pos hs
  rw [abs_le] at hI
  have hzG : 0 < z * Real.Gamma s := by positivity
  have hFhi : F ≤ z * Real.Gamma s * (h * (S + eta)) := by
    have : z * h * Real.Gamma s * G + z * Real.Gamma s * (2 * ρ ^ 49 / (1 - ρ)) ≤ z * Real.Gamma s * (h * (S + eta)) := by
      have : h * G + 2 * ρ ^ 49 / (1 - ρ) ≤ h * (S + eta) := by rw [heta]; nlinarith
      calc _ = z * Real.Gamma s * (h * G + 2 * ρ ^ 49 / (1 - ρ)) := by ring
        _ ≤ _ := mul_le_mul_of_nonneg_left this hzG.le
    linarith [hI.2]
  have hFlo : z * Real.Gamma s * (h * (S - eta)) ≤ F := by
    have : z * Real.Gamma s * (h * (S - eta)) ≤ z * h * Real.Gamma s * G - z * Real.Gamma s * (2 * ρ ^ 49 / (1 - ρ)) := by
      have : h * (S - eta) ≤ h * G - 2 * ρ ^ 49 / (1 - ρ) := by rw [heta]; nlinarith
      calc _ ≤ z * Real.Gamma s * (h * G - 2 * ρ ^ 49 / (1 - ρ)) := mul_le_mul_of_nonneg_left this hzG.le
        _ = _ := by ring
    linarith [hI.1]
  -- the polynomials
  have hzz : z * (1 - ρ) ^ 2 = 4 * ρ := by rw [hz]; field_simp
  obtain ⟨n1, n2, n3⟩ := hc.num
  obtain ⟨d1, d2, d3⟩ := hc.den
  have hA : 0 < decPoly c.anum z := decPoly_pos_coef _ n1 n2 _ hzp
  have hDn : 0 < decPoly c.aden z := decPoly_pos_coef _ d1 d2 _ hzp
  set A := decPoly c.anum z with hAdef
  set Dn := decPoly c.aden z with hDdef
  have hB : 0 < (1 - ρ) ^ 2 := by positivity
  have s1 : evQ (sub8 c.anum) ρ = A * ((1 - ρ) ^ 2) ^ 7 :=
    mul_right_cancel₀ hB.ne' (by rw [sub8_spec n3 hzz]; ring)
  have s2 : evQ (sub8 c.aden) ρ = Dn * ((1 - ρ) ^ 2) ^ 7 :=
    mul_right_cancel₀ hB.ne' (by rw [sub8_spec d3 hzz]; ring)
  have hB7 : 0 < ((1 - ρ) ^ 2) ^ 7 := by positivity
  have hlast : ρ < ((pts.getLastD 0 : ℚ) : ℝ) := by rw [hc.last]; exact hmax
  have up := evQ_scale (by norm_num) (posOn_spec hc.up (by push_cast; exact h0.le) hlast)
  have lo := evQ_scale (by norm_num) (posOn_spec hc.lo (by push_cast; exact h0.le) hlast)
  simp only [upPoly, evQ_add, evQ_smul, evQ_mul, s1, s2, ← hS] at up
  simp only [loPoly, evQ_add, evQ_smul, evQ_mul, s1, s2, ← hS] at lo
  have e1 : evQ [1, -1] ρ = 1 - ρ := by simp only [evQ]; push_cast; ring
  have e2 : evQ [1, 1] ρ = 1 + ρ := by simp only [evQ]; push_cast; ring
  have e3 : evQ [-eta] ρ = -(eta : ℝ) := by simp only [evQ]; push_cast; ring
  have e4 : evQ [eta] ρ = (eta : ℝ) := by simp only [evQ]; push_cast; ring
  rw [e1, e2, e3] at up
  rw [e1, e2, e4] at lo
  push_cast at up lo
  have heps0 : (0 : ℝ) < eps := by exact_mod_cast heps.1
  have heps1 : (eps : ℝ) < 1 := by exact_mod_cast heps.2
  have hcs' : (0 : ℝ) < cs := by exact_mod_cast hcs
  obtain ⟨g1, g2⟩ := sqrt_pi_bounds
  have hgLo : (0 : ℝ) < gLo := by norm_num [gLo]
  set q := Real.sqrt Real.pi with hq
  have heta0 : (0 : ℝ) < eta := by rw [heta]; norm_num
  have up' : (1 + ρ) * A < (1 + eps) * cs * gLo * ((1 - ρ) * ((S - eta) * Dn)) := by
    have : 0 < ((1 + eps) * cs * gLo * ((1 - ρ) * ((S - eta) * Dn)) - (1 + ρ) * A) * ((1 - ρ) ^ 2) ^ 7 := by
      calc _ < _ := up
        _ = _ := by ring
    have := pos_of_mul_pos_left this hB7.le
    linarith
  have lo' : (1 - eps) * cs * gHi * ((1 - ρ) * ((S + eta) * Dn)) < (1 + ρ) * A := by
    have : 0 < ((1 + ρ) * A - (1 - eps) * cs * gHi * ((1 - ρ) * ((S + eta) * Dn))) * ((1 - ρ) ^ 2) ^ 7 := by
      calc _ < _ := lo
        _ = _ := by ring
    have := pos_of_mul_pos_left this hB7.le
    linarith
  exact combine hzp hp h1' hA hDn heps0 heps1 hcs' hgLo g1 g2 heta0 (by rw [hh]; field_simp) hG hFlo hFhi up' lo'

theorem cert_fdm12 : Cert (1 / 10 ^ 12) 1 1 rTab1 fdm12Coef [487 / 1000] := by
  constructor <;> decide +kernel

theorem cert_fd12 : Cert (1 / 10 ^ 12) (1 / 2) 3 rTab3 fd12Coef [2435 / 10000, 487 / 1000] := by
  constructor <;> decide +kernel

theorem cert_fd32 : Cert (1 / 10 ^ 12) (3 / 4) 5 rTab5 fd32Coef [2435 / 10000, 36525 / 100000, 487 / 1000] := by
  constructor <;> decide +kernel

theorem cert_fd52 : Cert (1 / 10 ^ 12) (15 / 8) 7 rTab7 fd52Coef [2435 / 10000, 487 / 1000] := by
  constructor <;> decide +kernel

end Cheb

/-- The approximation for small x is good while `exp x < 7.4`, a little beyond 2. -/
def GoodLo (c : Coef) (j : ℝ) : Prop := ∀ x : ℝ, Real.exp x < 7.4 →
  |Real.exp x * decPoly c.anum (Real.exp x) / decPoly c.aden (Real.exp x) - fermiDirac j x| ≤ 1 / 10 ^ 12 * fermiDirac j x

theorem goodLo_of_cert {c : Coef} {cs : ℚ} {e : ℕ} {r : List ℤ} {pts : List ℚ} (hcs : 0 < cs) (he : 0 < e)
    (hG : Real.Gamma ((e : ℝ) / 2) = cs * Real.sqrt Real.pi) (hc : Cert (1 / 10 ^ 12) cs e r c pts) :
    GoodLo c ((e : ℝ) / 2 - 1) := by
  intro x hx
  have := accuracy (by norm_num) hcs he hG hc hx
  push_cast at this
  exact this

theorem goodLo_all : GoodLo fdm12Coef (-1 / 2) ∧ GoodLo fd12Coef (1 / 2) ∧ GoodLo fd32Coef (3 / 2) ∧ GoodLo fd52Coef (5 / 2) := by
  have g1 : Real.Gamma (1 / 2) = Real.sqrt Real.pi := Real.Gamma_one_half_eq
  have g3 : Real.Gamma (3 / 2) = 1 / 2 * Real.sqrt Real.pi := by
    rw [show (3 / 2 : ℝ) = 1 / 2 + 1 by norm_num, Real.Gamma_add_one (by norm_num), g1]
  have g5 : Real.Gamma (5 / 2) = 3 / 4 * Real.sqrt Real.pi := by
    rw [show (5 / 2 : ℝ) = 3 / 2 + 1 by norm_num, Real.Gamma_add_one (by norm_num), g3]; ring
  have g7 : Real.Gamma (7 / 2) = 15 / 8 * Real.sqrt Real.pi := by
    rw [show (7 / 2 : ℝ) = 5 / 2 + 1 by norm_num, Real.Gamma_add_one (by norm_num), g5]; ring
  refine ⟨?_, ?_, ?_, ?_⟩
  · have := goodLo_of_cert (by norm_num) (by norm_num) (by push_cast; rw [g1]; ring) cert_fdm12
    convert this using 1; norm_num
  · have := goodLo_of_cert (by norm_num) (by norm_num) (by push_cast; rw [g3]) cert_fd12
    convert this using 1; norm_num
  · have := goodLo_of_cert (by norm_num) (by norm_num) (by push_cast; rw [g5]) cert_fd32
    convert this using 1; norm_num
  · have := goodLo_of_cert (by norm_num) (by norm_num) (by push_cast; rw [g7]) cert_fd52
    convert this using 1; norm_num

/-- `F x` is an array of the shape of `x`, and wherever `x < 2` its element is the Fermi-Dirac integral of order `j` within
a relative error of `eps`. -/
def AccurateBelowTwo (F : NdArr ℝ → NdArr ℝ) (j eps : ℝ) : Prop :=
  ∀ x : NdArr ℝ, (F x).shape = x.shape ∧ ∀ idx, ValidIdx x.shape idx → x.get idx < 2 →
    |(F x).get idx - fermiDirac j (x.get idx)| ≤ eps * fermiDirac j (x.get idx)

theorem accurate_of_good {F : NdArr ℝ → NdArr ℝ} {c : Coef} {f : ℝ → ℝ} (hF : Elementwise F (fdValue c f)) {j : ℝ}
    (hc : GoodLo c j) : AccurateBelowTwo F j (1 / 10 ^ 12) := by
  intro x
  refine ⟨(hF x).1, fun idx hv hx => ?_⟩
  rw [(hF x).2 idx hv, fdValue, if_pos hx]
  exact hc _ (exp_lt_of_lt_two hx)

/-- **C79** (x < 2): the four functions are the Fermi-Dirac integrals `∫₀^∞ t^j/(exp(t-x)+1) dt` of order -1/2, 1/2, 3/2, 5/2
to a relative accuracy of 1e-12, for every real x below 2, elementwise for every array.
For every x: `C79_fd_accuracy`. -/
theorem C79_fd_accuracy_below_two : AccurateBelowTwo fdm12 (-1 / 2) (1 / 10 ^ 12) ∧ AccurateBelowTwo fd12 (1 / 2) (1 / 10 ^ 12) ∧
    AccurateBelowTwo fd32 (3 / 2) (1 / 10 ^ 12) ∧ AccurateBelowTwo fd52 (5 / 2) (1 / 10 ^ 12) := by
  obtain ⟨h1, h2, h3, h4⟩ := C70_fd
  obtain ⟨g1, g2, g3, g4⟩ := goodLo_all
  exact ⟨accurate_of_good h1 g1, accurate_of_good h2 g2, accurate_of_good h3 g3, accurate_of_good h4 g4⟩

/-- One element, x = 1. -/
example : |(fd12 ⟨[1], fun _ => 1⟩).get [0] - fermiDirac (1 / 2) 1| ≤ 1 / 10 ^ 12 * fermiDirac (1 / 2) 1 :=
  (C79_fd_accuracy_below_two.2.1 ⟨[1], fun _ => 1⟩).2 [0] (by simp [ValidIdx]) (by norm_num)

end Npplus
