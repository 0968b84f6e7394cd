import Verif.Props.FitMono
import Verif.Props.SplfitCost

/-!
# C121: fits are linear in the data
-/

set_option linter.unusedSectionVars false

namespace Npplus

open Spec Finset PwPoly Fit

variable {K : Type} [Field K] [LinearOrder K] [IsStrictOrderedRing K] [FloorRing K] {m : ℕ}

namespace LinAux

section
variable {V : Type} [AddCommGroup V] [Module K V] {xk : List K} {n nc : ℕ} {C C1 C2 : ℕ → List V} {g g1 g2 : K → V}

/-- coefficients of `a g1 + b g2` -/
def comb (n : ℕ) (a b : K) (C1 C2 : ℕ → List V) (j : ℕ) : List V :=
  (List.range (n + 1)).map fun k => a • (C1 j).getD k 0 + b • (C2 j).getD k 0

theorem comb_getD (a b : K) {j : ℕ} (h1 : (C1 j).length = n + 1) (h2 : (C2 j).length = n + 1) (k : ℕ) :
    (comb n a b C1 C2 j).getD k 0 = a • (C1 j).getD k 0 + b • (C2 j).getD k 0 := by
  unfold comb
  rcases Nat.lt_or_ge k (n + 1) with h | h
  · rw [List.getD_eq_getElem _ _ (by simpa using h)]; simp
  · rw [List.getD_eq_default _ _ (by simpa using h), List.getD_eq_default _ _ (by omega), List.getD_eq_default _ _ (by omega)]; simp

theorem comb_taylor (a b : K) {j : ℕ} (h1 : (C1 j).length = n + 1) (h2 : (C2 j).length = n + 1) (t : K) (k : ℕ) :
    taylorCoeff (comb n a b C1 C2 j) t k = a • taylorCoeff (C1 j) t k + b • taylorCoeff (C2 j) t k := by
  unfold taylorCoeff
  have hl : (comb n a b C1 C2 j).length = n + 1 := by simp [comb]
  rw [hl, h1, h2, smul_sum, smul_sum, ← sum_add_distrib]
  refine sum_congr rfl fun i _ => ?_
  rw [comb_getD a b h1 h2, smul_add, smul_comm a, smul_comm b]

/-- admissible functions of a fit -/
def Adm (xk : List K) (n nc : ℕ) (lo hi : List V) (g : K → V) : Prop :=
  ∃ C, IsPwOn xk n C g ∧ SmoothTo xk nc C ∧ EndValues xk C lo hi

/-- `a*l1 + b*l2`, elementwise -/
def lin (a b : K) (l1 l2 : List V) : List V := List.zipWith (fun u v => a • u + b • v) l1 l2

theorem lin_length (a b : K) {l1 l2 : List V} (h : l1.length = l2.length) : (lin a b l1 l2).length = l1.length := by
  simp [lin, h]

theorem lin_getD (a b : K) {l1 l2 : List V} (h : l1.length = l2.length) (k : ℕ) :
    (lin a b l1 l2).getD k 0 = a • l1.getD k 0 + b • l2.getD k 0 := by
  rcases Nat.lt_or_ge k l1.length with hk | hk
  · rw [List.getD_eq_getElem _ _ (by rw [lin_length a b h]; exact hk), List.getD_eq_getElem _ _ hk, List.getD_eq_getElem _ _ (by omega)]
    simp [lin]
  · rw [List.getD_eq_default _ _ (by rw [lin_length a b h]; exact hk), List.getD_eq_default _ _ hk, List.getD_eq_default _ _ (by omega)]
    simp

theorem adm_lin {lo1 lo2 hi1 hi2 : List V} (h2 : 2 ≤ xk.length) (a b : K) (H1 : Adm xk n nc lo1 hi1 g1) (H2 : Adm xk n nc lo2 hi2 g2)
    (hl : lo1.length = lo2.length) (hh : hi1.length = hi2.length) :
    Adm xk n nc (lin a b lo1 lo2) (lin a b hi1 hi2) (fun t => a • g1 t + b • g2 t) := by
  obtain ⟨C1, p1, s1, e1⟩ := H1
  obtain ⟨C2, p2, s2, e2⟩ := H2
  have hR : ∀ j, j + 1 < xk.length → ∀ k, rightCoeff xk (comb n a b C1 C2) j k = a • rightCoeff xk C1 j k + b • rightCoeff xk C2 j k :=
    fun j hj k => comb_taylor a b (p1 j hj).1 (p2 j hj).1 _ _
  refine ⟨comb n a b C1 C2, fun j hj => ⟨by simp [comb], fun t t1 t2 => ?_⟩, fun j hj k hk => ?_, fun k hk => ?_, fun k hk => ?_⟩
  · beta_reduce
    rw [(p1 j hj).2 t t1 t2, (p2 j hj).2 t t1 t2]
    rw [← taylorCoeff_zero, ← taylorCoeff_zero, ← taylorCoeff_zero, comb_taylor a b (p1 j hj).1 (p2 j hj).1]
  · unfold jump
    rw [hR j (by omega), comb_getD a b (p1 _ (by omega)).1 (p2 _ (by omega)).1]
    have u := s1 j hj k hk
    have v := s2 j hj k hk
    unfold jump at u v
    rw [sub_eq_zero.mp u, sub_eq_zero.mp v, sub_self]
  · rw [lin_length a b hl] at hk
    rw [comb_getD a b (p1 _ (by omega)).1 (p2 _ (by omega)).1, lin_getD a b hl, e1.1 k hk, e2.1 k (by omega)]
  · rw [lin_length a b hh] at hk
    rw [hR _ (by omega), lin_getD a b hh, e1.2 k hk, e2.2 k (by omega)]

end

variable {x : List K} {y sig : List (Fin m → K)} {xk : List K} {n nc : ℕ} {lo hi : List (Fin m → K)}

/-- The residuals of an optimal fit are orthogonal to the admissible variations. -/
theorem orth {p h : K → Fin m → K} {lo0 hi0 : List (Fin m → K)} (h2 : 2 ≤ xk.length)
    (key : ∀ g, Adm xk n nc lo hi g → chi2 x y sig g = chi2 x y sig p +
      (∑ t ∈ range x.length, ∑ i, ((g (x.getD t 0) i - p (x.getD t 0) i) / sig.getD t 0 i) ^ 2))
    (hp : Adm xk n nc lo hi p) (hh : Adm xk n nc lo0 hi0 h) (hl : lo0.length = lo.length) (hhi : hi0.length = hi.length)
    (l0 : ∀ k, lo0.getD k 0 = 0) (h0 : ∀ k, hi0.getD k 0 = 0) :
    ∑ t ∈ range x.length, ∑ i, (p (x.getD t 0) i - y.getD t 0 i) * h (x.getD t 0) i / sig.getD t 0 i ^ 2 = 0 := by
  have ha := adm_lin h2 1 1 hp hh hl.symm hhi.symm
  have e1 : lin (1 : K) 1 lo lo0 = lo := by
    refine Spl.list_ext_getD 0 (by rw [lin_length _ _ hl.symm]) fun k _ => ?_
    rw [lin_getD _ _ hl.symm, l0]; simp
  have e2 : lin (1 : K) 1 hi hi0 = hi := by
    refine Spl.list_ext_getD 0 (by rw [lin_length _ _ hhi.symm]) fun k _ => ?_
    rw [lin_getD _ _ hhi.symm, h0]; simp
  rw [e1, e2] at ha
  have := key _ ha
  unfold chi2 at this
  have hE : ∑ t ∈ range x.length, ∑ i, (((fun t => (1 : K) • p t + (1 : K) • h t) (x.getD t 0) i - y.getD t 0 i) / sig.getD t 0 i) ^ 2 =
      (∑ t ∈ range x.length, ∑ i, ((p (x.getD t 0) i - y.getD t 0 i) / sig.getD t 0 i) ^ 2 +
        ∑ t ∈ range x.length, ∑ i, (((fun t => (1 : K) • p t + (1 : K) • h t) (x.getD t 0) i - p (x.getD t 0) i) / sig.getD t 0 i) ^ 2) +
      2 * ∑ t ∈ range x.length, ∑ i, (p (x.getD t 0) i - y.getD t 0 i) * h (x.getD t 0) i / sig.getD t 0 i ^ 2 := by
    rw [mul_sum, ← sum_add_distrib, ← sum_add_distrib]
    refine sum_congr rfl fun t _ => ?_
    rw [mul_sum, ← sum_add_distrib, ← sum_add_distrib]
    refine sum_congr rfl fun i _ => ?_
    simp only [one_smul, Pi.add_apply, div_eq_mul_inv, inv_pow]
    ring
  rw [hE] at this
  have h3 := add_eq_left.mp this
  simpa using h3

theorem alg (N : ℕ) (a b : K) {r1 r2 r3 h : ℕ → Fin m → K} (s : ℕ → Fin m → K) (hr : ∀ t i, h t i = r3 t i - a * r1 t i - b * r2 t i)
    (o1 : ∑ t ∈ range N, ∑ i, r1 t i * h t i / s t i ^ 2 = 0) (o2 : ∑ t ∈ range N, ∑ i, r2 t i * h t i / s t i ^ 2 = 0)
    (o3 : ∑ t ∈ range N, ∑ i, r3 t i * h t i / s t i ^ 2 = 0) : ∑ t ∈ range N, ∑ i, (h t i / s t i) ^ 2 = 0 := by
  have : ∑ t ∈ range N, ∑ i, (h t i / s t i) ^ 2 = ∑ t ∈ range N, ∑ i, r3 t i * h t i / s t i ^ 2 -
      a * ∑ t ∈ range N, ∑ i, r1 t i * h t i / s t i ^ 2 - b * ∑ t ∈ range N, ∑ i, r2 t i * h t i / s t i ^ 2 := by
    rw [mul_sum, mul_sum, ← sum_sub_distrib, ← sum_sub_distrib]
    refine sum_congr rfl fun t _ => ?_
    rw [mul_sum, mul_sum, ← sum_sub_distrib, ← sum_sub_distrib]
    refine sum_congr rfl fun i _ => ?_
    simp only [div_eq_mul_inv, mul_pow, inv_pow]
    have : h t i ^ 2 = h t i * (r3 t i - a * r1 t i - b * r2 t i) := by rw [← hr, sq]
    rw [this]; ring
  rw [this, o1, o2, o3]; ring

variable {inv : InvFun K} {S : Scipy K} {H : SolveH K} {y1 y2 : List (Fin m → K)} {sigy : Option (List (Fin m → K))}
  {lo1 hi1 lo2 hi2 : List (Fin m → K)}

open SameAux MonoAux

/-- Optimal functions for `y1`, `y2` and for the combination. -/
theorem lin_core {xk' : List K} {d : ℕ} {P1 P2 Q : K → Fin m → K} (hsig : ∀ l, sigy = some l → ∀ v ∈ l, ∀ i, v i ≠ 0) (a b : K)
    (hlen : 2 ≤ xk'.length) (hl : lo1.length = lo2.length) (hh : hi1.length = hi2.length)
    (hy1 : y1.length = x.length) (hy2 : y2.length = x.length) (hsg1 : (sigy.getD (y1.map fun _ _ => 1)).length = y1.length)
    (B1 : Adm xk' n d lo1 hi1 P1) (B2 : Adm xk' n d lo2 hi2 P2) (B3 : Adm xk' n d (lin a b lo1 lo2) (lin a b hi1 hi2) Q)
    (key1 : ∀ g, Adm xk' n d lo1 hi1 g → chi2 x y1 (sigy.getD (y1.map fun _ _ => 1)) g = chi2 x y1 (sigy.getD (y1.map fun _ _ => 1)) P1 +
      (∑ t ∈ range x.length, ∑ i, ((g (x.getD t 0) i - P1 (x.getD t 0) i) / (sigy.getD (y1.map fun _ _ => 1)).getD t 0 i) ^ 2))
    (key2 : ∀ g, Adm xk' n d lo2 hi2 g → chi2 x y2 (sigy.getD (y2.map fun _ _ => 1)) g = chi2 x y2 (sigy.getD (y2.map fun _ _ => 1)) P2 +
      (∑ t ∈ range x.length, ∑ i, ((g (x.getD t 0) i - P2 (x.getD t 0) i) / (sigy.getD (y2.map fun _ _ => 1)).getD t 0 i) ^ 2))
    (key3 : ∀ g, Adm xk' n d (lin a b lo1 lo2) (lin a b hi1 hi2) g →
      chi2 x (lin a b y1 y2) (sigy.getD ((lin a b y1 y2).map fun _ _ => 1)) g =
        chi2 x (lin a b y1 y2) (sigy.getD ((lin a b y1 y2).map fun _ _ => 1)) Q +
      (∑ t ∈ range x.length, ∑ i, ((g (x.getD t 0) i - Q (x.getD t 0) i) / (sigy.getD ((lin a b y1 y2).map fun _ _ => 1)).getD t 0 i) ^ 2)) :
    ∀ t ∈ x, Q t = a • P1 t + b • P2 t := by
  have hy3 : (lin a b y1 y2).length = x.length := by rw [lin_length _ _ (by rw [hy1, hy2]), hy1]
  have hyl : y1.length = y2.length := by rw [hy1, hy2]
  set y3 := lin a b y1 y2 with hy3d
  have w2 : (y2.map fun _ _ => (1 : K) : List (Fin m → K)) = y1.map fun _ _ => 1 := by
    rw [List.map_const', List.map_const', hyl]
  have w3 : (y3.map fun _ _ => (1 : K) : List (Fin m → K)) = y1.map fun _ _ => 1 := by
    rw [List.map_const', List.map_const', hy3, hy1]
  rw [w2] at key2
  rw [w3] at key3
  set sg := sigy.getD (y1.map fun _ _ => 1) with hsgd
  have BR := adm_lin hlen a b B1 B2 hl hh
  have BH := adm_lin hlen 1 (-1) B3 BR rfl rfl
  have zl : ∀ (L : List (Fin m → K)) k, (lin (1 : K) (-1) L L).getD k 0 = 0 := fun L k => by rw [lin_getD _ _ rfl]; simp
  have ll : (lin (1 : K) (-1) (lin a b lo1 lo2) (lin a b lo1 lo2)).length = lo1.length := by rw [lin_length _ _ rfl, lin_length _ _ hl]
  have lh : (lin (1 : K) (-1) (lin a b hi1 hi2) (lin a b hi1 hi2)).length = hi1.length := by rw [lin_length _ _ rfl, lin_length _ _ hh]
  have o1 := orth (y := y1) (sig := sg) hlen key1 B1 BH ll lh (zl _) (zl _)
  have o2 := orth (y := y2) (sig := sg) hlen key2 B2 BH (by rw [ll, hl]) (by rw [lh, hh]) (zl _) (zl _)
  have o3 := orth (y := y3) (sig := sg) hlen key3 B3 BH (by rw [lin_length _ _ rfl])
    (by rw [lin_length _ _ rfl]) (zl _) (zl _)
  have hz : ∑ t ∈ range x.length, ∑ i, ((Q (x.getD t 0) i - (fun t => a • P1 t + b • P2 t) (x.getD t 0) i) / sg.getD t 0 i) ^ 2 = 0 := by
    have := alg x.length a b (fun t => sg.getD t 0) (fun t i => ?_) o1 o2 o3
    · refine Eq.trans ?_ this
      refine sum_congr rfl fun t _ => sum_congr rfl fun i _ => ?_
      simp only [one_smul, neg_smul, Pi.add_apply, Pi.neg_apply, Pi.smul_apply, smul_eq_mul, sub_eq_add_neg]
    · have ey : y3.getD t 0 = a • y1.getD t 0 + b • y2.getD t 0 := lin_getD a b hyl t
      rw [ey]
      simp only [one_smul, neg_smul, Pi.add_apply, Pi.neg_apply, Pi.smul_apply, smul_eq_mul]
      ring
  exact dist_zero hy1 hsg1 hsig hz.le

/-- `plfit` in the same terms. -/
theorem plfit_adm {y : List (Fin m → K)} {p : PwPoly K (Fin m → K)} {extrap : Option (ℕ × ℕ)} (hinv : InvOK inv) (hS : ScipyOK S)
    (hH : SolveHOK H) (hs : xk.Pairwise (· < ·)) (hsig : ∀ l, sigy = some l → ∀ v ∈ l, ∀ i, v i ≠ 0)
    (h : plfit inv S H xk x y sigy lo hi false extrap = .ok (.pw p)) :
    ∃ xk', FitKnots xk x xk' ∧ 2 ≤ xk'.length ∧ IsPolyline xk' p.call ∧ Adm xk' 1 0 lo hi p.call ∧
      y.length = x.length ∧ (sigy.getD (y.map fun _ _ => 1)).length = y.length ∧
      ∀ g, Adm xk' 1 0 lo hi g → chi2 x y (sigy.getD (y.map fun _ _ => 1)) g = chi2 x y (sigy.getD (y.map fun _ _ => 1)) p.call +
      (∑ t ∈ range x.length, ∑ i, ((g (x.getD t 0) i - p.call (x.getD t 0) i) / (sigy.getD (y.map fun _ _ => 1)).getD t 0 i) ^ 2) := by
  obtain ⟨s, -, hset, hl1, hh1, hy, hsg, -⟩ := plfit_ok h
  obtain ⟨-, e1, e2, -, -, hnp⟩ := setup_ok hset hs
  obtain ⟨-, -, hfk, hlen, hlo0, hhi0⟩ := hnp rfl
  rw [e1] at hl1
  rw [e2] at hh1
  obtain ⟨_, xk', e, hk, -, -, -, hP, hl, hh, key⟩ := C31_plfit hinv hS hH hs hsig h
  cases e
  have ex := hk.unique hfk
  rw [← ex] at hlen hlo0 hhi0
  refine ⟨xk', hk, hlen, hP, ?_, hy, hsg, fun g hg => ?_⟩
  · obtain ⟨C, u, v, w⟩ := pw_of_polyline hk.inc hP
    obtain ⟨w1, w2⟩ := w hlen
    refine ⟨C, u, v, fun k hk' => ?_, fun k hk' => ?_⟩
    · obtain ⟨l, rfl⟩ := List.length_eq_one_iff.mp (show lo.length = 1 by omega)
      obtain rfl : k = 0 := by omega
      rw [w1, hlo0 (by simp), hl l rfl]; rfl
    · obtain ⟨l, rfl⟩ := List.length_eq_one_iff.mp (show hi.length = 1 by omega)
      obtain rfl : k = 0 := by omega
      rw [w2, hhi0 (by simp), hh l rfl]; rfl
  · obtain ⟨C, u, v, w⟩ := hg
    obtain ⟨u1, u2⟩ := polyline_of_pw hk.inc u v
    obtain ⟨w1, w2⟩ := u2 hlen
    refine (key g u1 ?_ ?_).1
    · rintro l rfl
      rw [← hlo0 (by simp), w1, w.1 0 (by simp)]; rfl
    · rintro l rfl
      rw [← hhi0 (by simp), w2, w.2 0 (by simp)]; rfl

end LinAux

open LinAux MonoAux SameAux

variable {inv : InvFun K} {S : Scipy K} {H : SolveH K} {xk x : List K} {y1 y2 : List (Fin m → K)} {sigy : Option (List (Fin m → K))}
  {n : ℕ} {nc : Option ℤ} {lo1 hi1 lo2 hi2 : List (Fin m → K)} {e1 e2 e3 : Option (ℕ × ℕ)} {p1 p2 q : PwPoly K (Fin m → K)}
  {c1 c2 c3 : Cost K m}

/-- **C121** — the fit to `a*y1 + b*y2` with end values `a*lo1 + b*lo2`, `a*hi1 + b*hi2` is `a` times the fit to `y1` plus `b` times
the fit to `y2`: at every point of the data, and everywhere between the knots when the data determine the fit (only zero
vanishes at all points). -/
theorem C121_splfit (hS : ScipyOK S) (hs : xk.Pairwise (· < ·)) (hsig : ∀ l, sigy = some l → ∀ v ∈ l, ∀ i, v i ≠ 0) (a b : K)
    (hl : lo1.length = lo2.length) (hh : hi1.length = hi2.length)
    (h1 : splfit S xk x y1 sigy n nc lo1 hi1 false e1 = .ok (.pw p1, c1))
    (h2 : splfit S xk x y2 sigy n nc lo2 hi2 false e2 = .ok (.pw p2, c2))
    (h3 : splfit S xk x (List.zipWith (fun u v => a • u + b • v) y1 y2) sigy n nc (List.zipWith (fun u v => a • u + b • v) lo1 lo2)
      (List.zipWith (fun u v => a • u + b • v) hi1 hi2) false e3 = .ok (.pw q, c3)) :
    (∀ t ∈ x, q.call t = a • p1.call t + b • p2.call t) ∧
    ∀ xk' c, FitKnots xk x xk' → (nc = none ∧ c + 1 = n ∨ nc = some (c : ℤ)) →
      (∀ (C : ℕ → List K) g, IsPwOn xk' n C g → SmoothTo xk' c C →
        EndValues xk' C (List.replicate lo1.length 0) (List.replicate hi1.length 0) → (∀ t ∈ x, g t = 0) →
        ∀ j, j + 1 < xk'.length → ∀ k, (C j).getD k 0 = 0) →
      ∀ t, xk'.getD 0 0 ≤ t → t ≤ xk'.getD (xk'.length - 1) 0 → q.call t = a • p1.call t + b • p2.call t := by
  obtain ⟨s, -, -, hset, hy1, hsg1, -⟩ := splfit_ok h1
  obtain ⟨-, -, -, -, hy2, hsg2, -⟩ := splfit_ok h2
  obtain ⟨-, -, -, -, hy3, hsg3, -⟩ := splfit_ok h3
  obtain ⟨-, -, -, -, -, hnp⟩ := setup_ok hset hs
  obtain ⟨-, -, hfk, hlen, -, -⟩ := hnp rfl
  obtain ⟨_, xk', d, e, hk, hd, -, -, A1, key1⟩ := C34_minimal hS hs hsig h1
  cases e
  obtain ⟨_, xk2', d2, e, hk2, hd2, -, -, A2, key2⟩ := C34_minimal hS hs hsig h2
  cases e
  obtain ⟨_, xk3', d3, e, hk3, hd3, -, -, A3, key3⟩ := C34_minimal hS hs hsig h3
  cases e
  obtain rfl := hk.unique hk2
  obtain rfl := hk.unique hk3
  rw [← hk.unique hfk] at hlen
  obtain rfl := nc_eq hd hd2
  obtain rfl := nc_eq hd hd3
  have B1 : Adm xk' n d lo1 hi1 p1.call := A1
  have B2 : Adm xk' n d lo2 hi2 p2.call := A2
  have B3 : Adm xk' n d (lin a b lo1 lo2) (lin a b hi1 hi2) q.call := A3
  have BR := adm_lin hlen a b B1 B2 hl hh
  have BH := adm_lin hlen 1 (-1) B3 BR rfl rfl
  have zl : ∀ (L : List (Fin m → K)) k, (lin (1 : K) (-1) L L).getD k 0 = 0 := fun L k => by rw [lin_getD _ _ rfl]; simp
  have ll : (lin (1 : K) (-1) (lin a b lo1 lo2) (lin a b lo1 lo2)).length = lo1.length := by rw [lin_length _ _ rfl, lin_length _ _ hl]
  have lh : (lin (1 : K) (-1) (lin a b hi1 hi2) (lin a b hi1 hi2)).length = hi1.length := by rw [lin_length _ _ rfl, lin_length _ _ hh]
  have hpt : ∀ t ∈ x, q.call t = a • p1.call t + b • p2.call t := lin_core hsig a b hlen hl hh hy1 hy2 hsg1 B1 B2 B3
    (fun g ⟨C, u, v, w⟩ => (key1 C g u v w).1) (fun g ⟨C, u, v, w⟩ => (key2 C g u v w).1) (fun g ⟨C, u, v, w⟩ => (key3 C g u v w).1)
  refine ⟨hpt, fun xk'' c hk' hc hdet t t1 t2 => ?_⟩
  obtain rfl := hk.unique hk'
  obtain rfl := nc_eq hd hc
  obtain ⟨C, u, v, w⟩ := BH
  rw [← sub_eq_zero, sub_eq_add_neg]
  funext i
  have key : ∀ j, j + 1 < xk'.length → ∀ k, ((C j).map (· i)).getD k 0 = 0 := by
    refine hdet (fun j => (C j).map (· i)) (fun t => ((1 : K) • q.call t + (-1 : K) • (a • p1.call t + b • p2.call t)) i) (fun j hj => ⟨?_, ?_⟩) ?_ ⟨?_, ?_⟩ ?_
    · rw [List.length_map, (u j hj).1]
    · intro t t1 t2
      beta_reduce
      have := congrFun ((u j hj).2 t t1 t2) i
      rw [← taylorCoeff_zero, taylorCoeff_apply, taylorCoeff_zero] at this
      exact this
    · intro j hj k hk
      have := congrFun (v j hj k hk) i
      unfold jump rightCoeff at this ⊢
      rw [Pi.sub_apply, taylorCoeff_apply, ← getD_map_apply] at this
      exact this
    · intro k hk
      rw [List.length_replicate] at hk
      rw [getD_map_apply, w.1 k (by rw [ll]; exact hk), zl]
      simp
    · intro k hk
      rw [List.length_replicate] at hk
      have := congrFun (w.2 k (by rw [lh]; exact hk)) i
      unfold rightCoeff at this ⊢
      rw [taylorCoeff_apply, zl] at this
      rw [this]; simp
    · intro t ht
      rw [hpt t ht]
      simp only [one_smul, neg_smul, Pi.add_apply, Pi.neg_apply, Pi.smul_apply, smul_eq_mul]
      ring
  have := congrFun (isPwOn_at u hk.inc hlen t1 t2) i
  rw [← taylorCoeff_zero, taylorCoeff_apply] at this
  unfold taylorCoeff at this
  rw [sum_eq_zero (fun k _ => by rw [key _ (index_spec hk.inc hlen t1 t2).1, smul_zero])] at this
  simp only [one_smul, neg_smul, Pi.add_apply, Pi.neg_apply, Pi.smul_apply, smul_eq_mul, Pi.zero_apply] at this ⊢
  linarith

/-- **C121** — the same for `plfit`. -/
theorem C121_plfit (hinv : InvOK inv) (hS : ScipyOK S) (hH : SolveHOK H) (hs : xk.Pairwise (· < ·))
    (hsig : ∀ l, sigy = some l → ∀ v ∈ l, ∀ i, v i ≠ 0) (a b : K)
    (hl : lo1.length = lo2.length) (hh : hi1.length = hi2.length)
    (h1 : plfit inv S H xk x y1 sigy lo1 hi1 false e1 = .ok (.pw p1))
    (h2 : plfit inv S H xk x y2 sigy lo2 hi2 false e2 = .ok (.pw p2))
    (h3 : plfit inv S H xk x (List.zipWith (fun u v => a • u + b • v) y1 y2) sigy (List.zipWith (fun u v => a • u + b • v) lo1 lo2)
      (List.zipWith (fun u v => a • u + b • v) hi1 hi2) false e3 = .ok (.pw q)) :
    (∀ t ∈ x, q.call t = a • p1.call t + b • p2.call t) ∧
    ∀ xk', FitKnots xk x xk' →
      (∀ g : K → K, IsPolyline xk' g → (lo1 ≠ [] → g (xk.getD 0 0) = 0) → (hi1 ≠ [] → g (xk.getD (xk.length - 1) 0) = 0) →
        (∀ t ∈ x, g t = 0) → ∀ k ∈ xk', g k = 0) →
      ∀ t, xk'.getD 0 0 ≤ t → t ≤ xk'.getD (xk'.length - 1) 0 → q.call t = a • p1.call t + b • p2.call t := by
  obtain ⟨xk', hk, hlen, L1, B1, hy1, hsg1, key1⟩ := plfit_adm hinv hS hH hs hsig h1
  obtain ⟨xk2', hk2, -, L2, B2, hy2, -, key2⟩ := plfit_adm hinv hS hH hs hsig h2
  obtain ⟨xk3', hk3, -, L3, B3, -, -, key3⟩ := plfit_adm hinv hS hH hs hsig h3
  obtain rfl := hk.unique hk2
  obtain rfl := hk.unique hk3
  have hpt : ∀ t ∈ x, q.call t = a • p1.call t + b • p2.call t := lin_core hsig a b hlen hl hh hy1 hy2 hsg1 B1 B2 B3 key1 key2 key3
  refine ⟨hpt, fun xk'' hk' hdet t t1 t2 => ?_⟩
  obtain rfl := hk.unique hk'
  have LR : IsPolyline xk' fun t => a • p1.call t + b • p2.call t := by
    intro j hj
    obtain ⟨u1, v1, w1⟩ := L1 j hj
    obtain ⟨u2, v2, w2⟩ := L2 j hj
    refine ⟨a • u1 + b • u2, a • v1 + b • v2, fun t t1 t2 => ?_⟩
    beta_reduce
    rw [w1 t t1 t2, w2 t t1 t2]
    simp only [smul_add, smul_comm t]
    abel
  obtain ⟨_, _, e, -, -, -, -, -, l1, r1, -⟩ := C31_plfit hinv hS hH hs hsig h1
  cases e
  obtain ⟨_, _, e, -, -, -, -, -, l2, r2, -⟩ := C31_plfit hinv hS hH hs hsig h2
  cases e
  obtain ⟨_, _, e, -, -, -, -, -, l3, r3, -⟩ := C31_plfit hinv hS hH hs hsig h3
  cases e
  obtain ⟨s, -, hset, hll1, hhh1, -⟩ := plfit_ok h1
  obtain ⟨-, ee1, ee2, -⟩ := setup_ok hset hs
  rw [ee1] at hll1
  rw [ee2] at hhh1
  have one : ∀ {L M : List (Fin m → K)}, L.length ≤ 1 → L.length = M.length → L ≠ [] → ∃ u v, L = [u] ∧ M = [v] := by
    intro L M a1 a2 a3
    have := List.length_pos_of_ne_nil a3
    obtain ⟨u, rfl⟩ := List.length_eq_one_iff.mp (show L.length = 1 by omega)
    obtain ⟨v, rfl⟩ := List.length_eq_one_iff.mp a2.symm
    exact ⟨u, v, rfl, rfl⟩
  refine polyline_ext hk.inc hlen L3 LR (fun k hk' => ?_) t1 t2
  funext i
  rw [← sub_eq_zero]
  refine hdet _ (polyline_sub L3 LR i) (fun hne => ?_) (fun hne => ?_) (fun t ht => ?_) k hk'
  · obtain ⟨u, v, rfl, rfl⟩ := one hll1 hl hne
    rw [l3 (a • u + b • v) rfl, l1 u rfl, l2 v rfl, sub_self]
  · obtain ⟨u, v, rfl, rfl⟩ := one hhh1 hh hne
    rw [r3 (a • u + b • v) rfl, r1 u rfl, r2 v rfl, sub_self]
  · rw [hpt t ht, sub_self]

/-- Non-trivial case: parabolas with a given value at 0 fitted to 5 points; the fit to `2*y1 - y2`. -/
example : let f := fun (y : List (Fin 1 → ℚ)) (l : ℚ) => ((splfit (m := 1) (exactScipy ℚ) [0, 3] [0, 1/2, 1, 2, 3] y none 2 none [fun _ => l]).bind
      fun o => [(0 : ℚ), 1/2, 1, 2, 3].mapM fun t => (o.1.at t).map (· 0))
    f [fun _ => 0, fun _ => 1, fun _ => 0, fun _ => 1, fun _ => 0] 1 = .ok [1, 619/739, 507/739, 307/739, 139/739] ∧
    f [fun _ => 0, fun _ => 0, fun _ => 0, fun _ => 1, fun _ => 0] 0 = .ok [0, 176/739, 291/739, 338/739, 141/739] ∧
    f [fun _ => 0, fun _ => 2, fun _ => 0, fun _ => 1, fun _ => 0] 2 = .ok [2, 1062/739, 723/739, 276/739, 137/739] := by decide +kernel

end Npplus
