import Verif.Lemmas.SplfitPerNs
import Verif.Props.SplfitPer

/-!
# C34: existence of the periodic fit
-/

set_option linter.unusedSectionVars false

namespace Npplus
open Spec Finset Fit

variable {K : Type} [Field K] [LinearOrder K] [IsStrictOrderedRing K] [FloorRing K] {m : ℕ}
  {S : Scipy K} {xk x : List K} {y : List (Fin m → K)}
  {sigy : Option (List (Fin m → K))} {n : ℕ} {ncArg : Option ℤ} {lo hi : List (Fin m → K)} {per : Bool}
  {extrap : Option (ℕ × ℕ)} {out : SplineOut K (Fin m → K)} {cost : Cost K m}

/-- The periodic function with given coefficients. -/
def perFun {V : Type} [AddCommGroup V] [Module K V] (xk : List K) (C : ℕ → List V) (t : K) : V :=
  pwFun xk C (pmod (t - xk.getD 0 0) (xk.getD (xk.length - 1) 0 - xk.getD 0 0) + xk.getD 0 0)

theorem perFun_isPwPer {V : Type} [AddCommGroup V] [Module K V] (hs : xk.Pairwise (· < ·)) (h2 : 2 ≤ xk.length) {C : ℕ → List V}
    (hC : ∀ j, j + 1 < xk.length → (C j).length = n + 1) : IsPwPer xk n C (perFun xk C) := by
  have hpos : 0 < xk.getD (xk.length - 1) 0 - xk.getD 0 0 := sub_pos.mpr (pw_getD_lt hs (by omega) (by omega))
  constructor
  · intro t k
    unfold perFun
    rw [add_sub_right_comm, pmod_add _ hpos]
  · intro j hj
    refine ⟨hC j hj, fun t h0 h1 hl => ?_⟩
    have hx0 : xk.getD 0 0 ≤ t := by
      rcases h0 with h0 | ⟨rfl, rfl⟩
      · exact (pw_getD_le hs (Nat.zero_le _) (by omega)).trans h0.le
      · exact le_rfl
    unfold perFun
    rw [pmod_eq_self (sub_nonneg.mpr hx0) (sub_lt_sub_right hl _), sub_add_cancel]
    exact (pwFun_isPwOn hs hC j hj).2 t h0 h1

theorem setup_per_succeeds (hs : xk.Pairwise (· < ·)) (h2 : 2 ≤ xk.length) :
    ∃ s, setup (m := m) xk x [] [] true none = .ok s := by
  unfold setup
  simp only [bind, Except.bind, pure, Except.pure, throw, throwThe, MonadExceptOf.throw]
  rw [if_neg (by simp)]
  try simp only
  rw [if_neg (by omega)]
  try simp only
  rw [if_neg (not_lt.mpr (first_le hs (last_mem h2)))]
  try simp only
  rw [if_pos trivial]
  exact ⟨_, rfl⟩

open Polynomial in
/-- **C34** — the smoothness requirements of a periodic fit are independent of each other: there are piecewise polynomials
of degree `n > nc` with any prescribed jumps of the first `nc` derivatives. -/
theorem C34_periodic_independent (hs : xk.Pairwise (· < ·)) (h2 : 2 ≤ xk.length) {n nc : ℕ} (hnc : nc < n) (a : ℕ → ℕ → K) :
    ∃ C : ℕ → List K, (∀ j, j + 1 < xk.length → (C j).length = n + 1) ∧
      ∀ j, j + 1 < xk.length → ∀ k ≤ nc, perJump xk C j k = a j k := by
  set P : ℕ → K[X] := fun j => Nat.rec 0
    (fun j Q => taylor (xk.getD (j + 1) 0 - xk.getD j 0) Q + lpoly ((List.range (nc + 1)).map (a j))) j with hPd
  have hP0 : P 0 = 0 := rfl
  have hPs : ∀ j, P (j + 1) = taylor (xk.getD (j + 1) 0 - xk.getD j 0) (P j) + lpoly ((List.range (nc + 1)).map (a j)) := fun j => rfl
  clear_value P
  have hPdeg : ∀ j, (P j).natDegree ≤ n := by
    intro j
    induction j with
    | zero => rw [hP0]; simp
    | succ j ih =>
      rw [hPs]
      exact (natDegree_add_le _ _).trans (max_le (by rw [natDegree_taylor]; exact ih) (lpoly_degree (by simp; omega)))
  have hW : xk.getD (xk.length - 1) 0 - xk.getD 0 0 ≠ 0 := sub_ne_zero.mpr (pw_getD_lt hs (by omega) (by omega)).ne'
  have hal : ∀ j k, k ≤ nc → ((List.range (nc + 1)).map (a j)).getD k 0 = a j k := by
    intro j k hk
    rw [List.getD_eq_getElem _ _ (by simp; omega)]; simp
  obtain ⟨d, hd⟩ := change_of hW (nc + 1) (fun k => - (P (xk.length - 1)).coeff k)
  set D : K[X] := lpoly ((List.range (nc + 2)).map d) with hD
  have hDdeg : D.natDegree ≤ n := lpoly_degree (by simp; omega)
  have hDc : ∀ k ≤ nc, (taylor (xk.getD (xk.length - 1) 0 - xk.getD 0 0) D).coeff k - D.coeff k = - (P (xk.length - 1)).coeff k := by
    intro k hk
    rw [← hd k (by omega), hD, taylor_lpoly, lpoly_coeff]
    have e1 : ((List.range (nc + 2)).map d).getD k 0 = d k := by
      rw [List.getD_eq_getElem _ _ (by simp; omega)]; simp
    rw [e1]
    unfold taylorCoeff
    congr 1
    rw [List.length_map, List.length_range]
    refine sum_congr rfl fun q hq => ?_
    have e2 : ((List.range (nc + 2)).map d).getD q 0 = d q := by
      rw [List.getD_eq_getElem _ _ (by have := mem_range.mp hq; simp; omega)]; simp
    rw [e2, smul_eq_mul, mul_assoc]
  have hQdeg : ∀ j, (P j + taylor (xk.getD j 0 - xk.getD 0 0) D).natDegree ≤ n := fun j =>
    (natDegree_add_le _ _).trans (max_le (hPdeg j) (by rw [natDegree_taylor]; exact hDdeg))
  refine ⟨fun j => lcoef n (P j + taylor (xk.getD j 0 - xk.getD 0 0) D), fun j _ => lcoef_length _ _, ?_⟩
  intro j hj k hk
  have hR : (taylor (xk.getD (j + 1) 0 - xk.getD j 0) (P j)).coeff k = (P (j + 1)).coeff k - a j k := by
    rw [hPs, coeff_add, lpoly_coeff, hal j k hk]; ring
  unfold perJump rightCoeff
  rw [lcoef_getD (hQdeg _), taylor_lcoef (hQdeg _), map_add, taylor_taylor, sub_add_sub_cancel]
  simp only [coeff_add]
  rw [hR]
  rcases Nat.lt_or_ge (j + 2) xk.length with h | h
  · rw [Nat.mod_eq_of_lt (by omega)]
    ring
  · have hjl : j + 1 = xk.length - 1 := by omega
    rw [hjl, Nat.mod_self, hP0, sub_self, taylor_zero, coeff_zero]
    linear_combination - hDc k hk

/-- **C34** — the periodic fit exists (`splfit(…, per=True)` returns) for three or more increasing knots whenever the data
determine it: (1) the only periodic piecewise polynomial with the required smoothness that vanishes at the data is zero, and
(2) the same for functions on one period only which are not periodic but vanish to order `nc` at its end.  ((2) is needed
because the solver factors the band part of its matrix, see `C37`.) -/
theorem C34_periodic_succeeds (hS : ScipyOK S) (hs : xk.Pairwise (· < ·)) (h3 : 3 ≤ xk.length)
    (hy : y.length = x.length) (hsg : (sigy.getD (y.map fun _ _ => 1)).length = y.length)
    (hsig : ∀ v ∈ sigy.getD (y.map fun _ _ => 1), ∀ i, v i ≠ 0) {nc : ℕ}
    (hor : ncArg = none ∧ nc + 1 = n ∨ ncArg = some (nc : ℤ)) (hnc : nc < n)
    (hdet : ∀ (C : ℕ → List K) g, IsPwPer xk n C g → (∀ j, j + 1 < xk.length → ∀ k ≤ nc, perJump xk C j k = 0) →
      (∀ t ∈ x, g t = 0) → ∀ j, j + 1 < xk.length → ∀ q, (C j).getD q 0 = 0)
    (hdet2 : ∀ (C : ℕ → List K) g, IsPwOn xk n C g → SmoothTo xk nc C → EndValues xk C [] (List.replicate (nc + 1) 0) →
      (∀ t ∈ x, ∀ k : ℤ, xk.getD 0 0 ≤ t + k * (xk.getD (xk.length - 1) 0 - xk.getD 0 0) →
        t + k * (xk.getD (xk.length - 1) 0 - xk.getD 0 0) < xk.getD (xk.length - 1) 0 →
        g (t + k * (xk.getD (xk.length - 1) 0 - xk.getD 0 0)) = 0) →
      ∀ j, j + 1 < xk.length → ∀ q, (C j).getD q 0 = 0) :
    ∃ out cost, splfit S xk x y sigy n ncArg [] [] true none = .ok (out, cost) := by
  obtain ⟨s, hset⟩ := setup_per_succeeds (m := m) (x := x) hs (by omega)
  obtain ⟨h2, e1, e2, e3, hper, -⟩ := setup_ok hset hs
  obtain ⟨-, -, -, hxk, hsx⟩ := hper rfl
  set x0 := xk.getD 0 0 with hx0
  set xl := xk.getD (xk.length - 1) 0 with hxl
  have hpos : 0 < xl - x0 := sub_pos.mpr (pw_getD_lt hs (by omega) (by omega))
  have hget : ∀ t < x.length, s.x.getD t 0 = pmod (x.getD t 0 - x0) (xl - x0) + x0 := by
    intro t ht
    rw [hsx, List.getD_eq_getElem _ _ (by simpa using ht), List.getElem_map, List.getD_eq_getElem _ _ ht]
  have hmem : ∀ t < x.length, x.getD t 0 ∈ x := by
    intro t ht; rw [List.getD_eq_getElem _ _ ht]; exact List.getElem_mem _
  have hr : ∀ t < x.length, xk.getD 0 0 ≤ s.x.getD t 0 ∧ s.x.getD t 0 < xk.getD (xk.length - 1) 0 := by
    intro t ht
    rw [hget t (by omega)]
    have a := pmod_nonneg (x.getD t 0 - x0) hpos
    have b := pmod_lt (x.getD t 0 - x0) hpos
    constructor
    · rw [← hx0]; linarith
    · rw [← hxl]; linarith
  have hix : ∀ t < x.length, index xk (s.x.getD t 0) < xk.length - 1 := fun t ht => by
    have := (index_spec hs h2 (hr t ht).1 (hr t ht).2.le).1
    omega
  have hdne : ∀ j, j + 1 < xk.length → Spl.width xk j ≠ 0 := fun j hj => Spl.width_ne hs hj
  set dx := Spl.width xk with hdx
  have hmod : ∀ j, (j + 1) % (xk.length - 1) + 1 < xk.length := fun j => by
    have := Nat.mod_lt (j + 1) (show 0 < xk.length - 1 by omega)
    omega
  have hwpos : ∀ i, ∀ t < x.length, 0 < 1 / ((sigy.getD (y.map fun _ _ => 1)).getD t 0 i * (sigy.getD (y.map fun _ _ => 1)).getD t 0 i) := by
    intro i t ht
    have : (sigy.getD (y.map fun _ _ => 1)).getD t 0 i ≠ 0 := by
      refine hsig _ ?_ i
      rw [List.getD_eq_getElem _ _ (by omega)]; exact List.getElem_mem _
    exact one_div_pos.mpr (mul_self_pos.mpr this)
  -- the coefficients of the functions
  have conv : ∀ c : ℕ → ℕ → K, ∃ C : ℕ → List K, (∀ j, (C j).length = n + 1) ∧
      (∀ j q, j + 1 < xk.length → q < n + 1 → dx j ^ q * (C j).getD q 0 = c j q) ∧
      (∀ j k, j + 1 < xk.length → dx j ^ k * rightCoeff xk C j k = ∑ q ∈ range (n + 1), (q.choose k : K) * c j q) ∧
      ∀ t < x.length, pwFun xk C (s.x.getD t 0) = ∑ q ∈ range (n + 1),
        ((s.x.getD t 0 - xk.getD (index xk (s.x.getD t 0)) 0) * (1 / dx (index xk (s.x.getD t 0)))) ^ q * c (index xk (s.x.getD t 0)) q := by
    intro c
    have hCl : ∀ j, ((List.range (n + 1)).map fun q => c j q / dx j ^ q).length = n + 1 := fun j => by simp
    have hcs : ∀ j q, j + 1 < xk.length → q < n + 1 → dx j ^ q * ((List.range (n + 1)).map fun q => c j q / dx j ^ q).getD q 0 = c j q := by
      intro j q hj hq
      rw [List.getD_eq_getElem _ _ (by simpa using hq)]
      simp only [List.getElem_map, List.getElem_range]
      rw [mul_div_cancel₀]
      exact pow_ne_zero _ (hdne j hj)
    refine ⟨fun j => (List.range (n + 1)).map fun q => c j q / dx j ^ q, hCl, hcs, fun j k hj => ?_, fun t ht => ?_⟩
    · rw [rightCoeff]
      refine (taylor_scaled1 (hCl j) _ k).trans ?_
      exact sum_congr rfl fun q hq => by rw [← hcs j q hj (mem_range.mp hq)]
    · have := hix t ht
      unfold pwFun
      rw [polyVal_scaled1 (hCl _) (hdne (index xk (s.x.getD t 0)) (by omega))]
      exact sum_congr rfl fun q hq => by rw [hcs _ q (by omega) (mem_range.mp hq)]
  have hlen : s.x.length = x.length := by rw [hsx, List.length_map]
  have hcyc : ∀ i, Nonsing (sysOf n nc s x.length y (sigy.getD (y.map fun _ _ => 1)) true i).n
      (symCyclic (sysOf n nc s x.length y (sigy.getD (y.map fun _ _ => 1)) true i).n (n + 1)
        (sysOf n nc s x.length y (sigy.getD (y.map fun _ _ => 1)) true i).a) := by
    intro i
    unfold sysOf
    rw [e1, e2, hxk, ← hdx]
    refine splSys_per_nonsing hnc hix (hwpos i) ?_ ?_
    · intro c c1 c4
      obtain ⟨C, hCl, hcs, htay, hval⟩ := conv c
      have h0 := hdet C (perFun xk C) (perFun_isPwPer hs h2 fun j _ => hCl j) ?_ ?_
      · intro j hj q hq
        rw [← hcs j q (by omega) hq, h0 j (by omega), mul_zero]
      · intro j hj k hk'
        unfold perJump
        rw [sub_eq_zero]
        have a1 := c1 j k (by omega) (by omega)
        rw [← htay j k (by omega), ← hcs _ k (hmod j) (by omega), ratOf, ← mul_assoc,
          div_mul_cancel₀ _ (pow_ne_zero _ (hdne _ (hmod j)))] at a1
        exact (mul_left_cancel₀ (pow_ne_zero _ (hdne j (by omega))) a1).symm
      · intro t ht
        obtain ⟨i, hi', rfl⟩ := List.getElem_of_mem ht
        rw [← List.getD_eq_getElem _ 0]
        unfold perFun
        rw [← hx0, ← hxl, ← hget i hi', hval i hi']
        exact c4 i hi'
    · intro a
      obtain ⟨C, hCl, hj⟩ := C34_periodic_independent hs h2 hnc (fun j k => - a j k / dx j ^ k)
      refine ⟨fun j q => dx j ^ q * (C j).getD q 0, fun j k hj' hk' => ?_⟩
      have := hj j (by omega) k (by omega)
      have d1 := pow_ne_zero k (hdne j (by omega))
      have d2 := pow_ne_zero k (hdne _ (hmod j))
      have htay : dx j ^ k * rightCoeff xk C j k = ∑ q ∈ range (n + 1), (q.choose k : K) * (dx j ^ q * (C j).getD q 0) :=
        taylor_scaled1 (hCl j (by omega)) _ k
      rw [← htay, ratOf, ← mul_assoc, div_mul_cancel₀ _ d2, ← mul_sub]
      rw [perJump, eq_div_iff d1] at this
      linear_combination -this
  have hband : ∀ i, Nonsing (sysOf n nc s x.length y (sigy.getD (y.map fun _ _ => 1)) true i).n
      (symBand (n + 1) (sysOf n nc s x.length y (sigy.getD (y.map fun _ _ => 1)) true i).a) := by
    intro i
    unfold sysOf
    rw [e1, e2, hxk, ← hdx]
    obtain ⟨b1, b2⟩ := splSys_per_band (n := n) (nc := nc) (nk1 := xk.length - 1) (dx := dx) (N := x.length)
      (ix := fun t => index xk (s.x.getD t 0))
      (x := fun t => (s.x.getD t 0 - xk.getD (index xk (s.x.getD t 0)) 0) * (1 / dx (index xk (s.x.getD t 0))))
      (y := fun t => y.getD t 0 i)
      (w := fun t => 1 / ((sigy.getD (y.map fun _ _ => 1)).getD t 0 i * (sigy.getD (y.map fun _ _ => 1)).getD t 0 i))
      (lo := ([] : List (Fin m → K)).map (· i)) (hi := ([] : List (Fin m → K)).map (· i)) (List.replicate (nc + 1) 0) (by simp)
    rw [b1, b2]
    refine splSys_nonsing hnc (by omega) (by simp) (by simp) hix (hwpos i) ?_ ?_
    · intro c c1 c2 c3 c4
      simp only [List.length_replicate] at c2
      obtain ⟨C, hCl, hcs, htay, hval⟩ := conv c
      have h0 := hdet2 C (pwFun xk C) (pwFun_isPwOn hs fun j _ => hCl j) ?_ ⟨?_, ?_⟩ ?_
      · intro j hj q hq
        rw [← hcs j q (by omega) hq, h0 j (by omega), mul_zero]
      · intro j hj k hk'
        unfold jump
        rw [sub_eq_zero]
        have a1 := c1 j k (by omega) (by omega)
        rw [← htay j k (by omega), ← hcs (j + 1) k (by omega) (by omega), ratOf, Nat.mod_eq_of_lt (by omega), ← mul_assoc,
          div_mul_cancel₀ _ (pow_ne_zero _ (hdne _ (by omega)))] at a1
        exact (mul_left_cancel₀ (pow_ne_zero _ (hdne j (by omega))) a1).symm
      · intro k hk'; simp at hk'
      · intro k hk'
        rw [List.length_replicate] at hk'
        have a1 := c2 k hk'
        rw [show xk.length - 1 - 1 = xk.length - 2 by omega, ← htay _ k (by omega)] at a1
        rw [(mul_eq_zero.mp a1).resolve_left (pow_ne_zero _ (hdne _ (by omega))), List.getD_eq_getElem _ _ (by simpa using hk')]; simp
      · intro t ht k hk0 hk1
        obtain ⟨i, hi', rfl⟩ := List.getElem_of_mem ht
        rw [← List.getD_eq_getElem _ 0] at hk0 hk1 ⊢
        have : s.x.getD i 0 = x.getD i 0 + k * (xl - x0) := by
          rw [hget i hi', ← pmod_add _ hpos k, pmod_eq_self]
          · ring
          · linarith
          · linarith
        rw [← this, hval i hi']
        exact c4 i hi'
    · intro a bl bh
      simp only [List.length_replicate]
      obtain ⟨C, hCl, hj, hE⟩ := C34_independent hs h2 hnc (fun j k => - a j k / dx j ^ k) []
        ((List.range (nc + 1)).map fun k => bh k / dx (xk.length - 2) ^ k) (by simp; omega)
      have htay : ∀ j k, j + 1 < xk.length → dx j ^ k * rightCoeff xk C j k = ∑ q ∈ range (n + 1), (q.choose k : K) * (dx j ^ q * (C j).getD q 0) := by
        intro j k hj
        exact taylor_scaled1 (hCl j hj) _ k
      refine ⟨fun j q => dx j ^ q * (C j).getD q 0, ?_, ?_, ?_⟩
      · intro j k hj' hk'
        have := hj j (by omega) k (by omega)
        have d1 := pow_ne_zero k (hdne j (by omega))
        have d2 := pow_ne_zero k (hdne (j + 1) (by omega))
        rw [← htay j k (by omega), ratOf, Nat.mod_eq_of_lt (by omega), ← mul_assoc, div_mul_cancel₀ _ d2, ← mul_sub]
        rw [jump, eq_div_iff d1] at this
        linear_combination -this
      · intro k hk'
        rw [show xk.length - 1 - 1 = xk.length - 2 by omega, ← htay _ k (by omega), hE.2 k (by simpa using hk'),
          List.getD_eq_getElem _ _ (by simpa using hk')]
        simp only [List.getElem_map, List.getElem_range]
        exact mul_div_cancel₀ _ (pow_ne_zero _ (hdne _ (by omega)))
      · intro k hk'; simp at hk'
  have hN : ∀ i, (sysOf n nc s x.length y (sigy.getD (y.map fun _ _ => 1)) true i).n = (n + 2 + nc) * (xk.length - 1) := by
    intro i; unfold sysOf splSys; rw [hxk]; rfl
  have hbig : 2 * (n + 2 + nc) ≤ (n + 2 + nc) * (xk.length - 1) := by
    rw [mul_comm]; exact Nat.mul_le_mul_left _ (by omega)
  have hcomp : ∀ i, ∃ z, solvesPeriodic S ⟨n + 2, (sysOf n nc s x.length y (sigy.getD (y.map fun _ _ => 1)) true i).n,
      (sysOf n nc s x.length y (sigy.getD (y.map fun _ _ => 1)) true i).a⟩
      (sysOf n nc s x.length y (sigy.getD (y.map fun _ _ => 1)) true i).n
      (sysOf n nc s x.length y (sigy.getD (y.map fun _ _ => 1)) true i).b true = .ok z :=
    fun i => C39_periodic_succeeds hS (ab := ⟨n + 2, (sysOf n nc s x.length y (sigy.getD (y.map fun _ _ => 1)) true i).n,
      (sysOf n nc s x.length y (sigy.getD (y.map fun _ _ => 1)) true i).a⟩) _ true (by rw [hN i]; show (n + 2 + nc) * (xk.length - 1) ≠ 0; omega)
      (by rw [hN i]; show 2 * (n + 2 - 1) ≤ (n + 2 + nc) * (xk.length - 1); omega)
      (hband i) (hcyc i)
  choose z hz using hcomp
  have hz' := seqFin_ok.mpr hz
  simp only [sysOf, e1, e2, hxk] at hz'
  have hnew : ∀ z : Fin m → ℕ → K, ∃ P, PerPwPoly.new (splAssemble n nc 0 xk z) = .ok P := by
    intro z
    obtain ⟨P, _, hP, -⟩ := (C23_periodic (splAssemble_WF (z := z) (nlo := 0) (nc := nc) (show 1 ≤ n by omega) hs h2)).2 h2
    exact ⟨P, hP⟩
  obtain ⟨P, hP⟩ := hnew z
  unfold splfit
  simp only [bind, Except.bind, pure, Except.pure, throw, throwThe, MonadExceptOf.throw, hset]
  rw [if_neg (by omega)]
  try simp only
  rw [if_neg (by omega)]
  try simp only
  have hmax : ¬ (1 + (nc : ℤ) < max (0 : ℤ) (0 : ℤ)) := by omega
  rcases hor with ⟨rfl, hn⟩ | rfl
  · have en : (n : ℤ) - 1 = nc := by omega
    simp only [en, e1, e2]
    rw [if_neg (by simpa using hmax)]
    simp only [Int.toNat_natCast]
    rw [if_neg (by omega)]
    simp only [if_true, hxk]
    simp only [hz', List.length_nil, hP]
    exact ⟨_, _, rfl⟩
  · simp only [e1, e2]
    rw [if_neg (by omega)]
    try simp only
    rw [if_neg (by simpa using hmax)]
    simp only [Int.toNat_natCast]
    rw [if_neg (by omega)]
    simp only [if_true, hxk]
    simp only [hz', List.length_nil, hP]
    exact ⟨_, _, rfl⟩

/-- **C34** — the simplest sufficient condition for a periodic fit: three knots or more, `n+1` different data points (taken
modulo the period) in one of the intervals and `n-nc` (one, by default) different data points inside each other interval. -/
theorem C34_periodic_succeeds_data (hS : ScipyOK S) (hs : xk.Pairwise (· < ·)) (h3 : 3 ≤ xk.length)
    (hy : y.length = x.length) (hsg : (sigy.getD (y.map fun _ _ => 1)).length = y.length)
    (hsig : ∀ v ∈ sigy.getD (y.map fun _ _ => 1), ∀ i, v i ≠ 0) {nc : ℕ}
    (hor : ncArg = none ∧ nc + 1 = n ∨ ncArg = some (nc : ℤ)) (hnc : nc < n)
    {j0 : ℕ} (hj0 : j0 + 1 < xk.length)
    (h0 : ∃ T : Finset K, n + 1 ≤ T.card ∧ ∀ t ∈ T, (∃ k : ℤ, t + k * (xk.getD (xk.length - 1) 0 - xk.getD 0 0) ∈ x) ∧
      xk.getD j0 0 < t ∧ t < xk.getD (j0 + 1) 0)
    (hT : ∀ j, j + 1 < xk.length → j ≠ j0 → ∃ T : Finset K, n - nc ≤ T.card ∧
      ∀ t ∈ T, (∃ k : ℤ, t + k * (xk.getD (xk.length - 1) 0 - xk.getD 0 0) ∈ x) ∧ xk.getD j 0 < t ∧ t < xk.getD (j + 1) 0) :
    ∃ out cost, splfit S xk x y sigy n ncArg [] [] true none = .ok (out, cost) := by
  have hj : ∀ j, j + 1 < xk.length → ∀ t, xk.getD j 0 < t → t < xk.getD (j + 1) 0 → xk.getD 0 0 < t ∧ t < xk.getD (xk.length - 1) 0 :=
    fun j hj t h1 h2 => ⟨(pw_getD_le hs (Nat.zero_le j) (by omega)).trans_lt h1, h2.trans_le (pw_getD_le hs (show j + 1 ≤ xk.length - 1 by omega) (by omega))⟩
  have main : ∀ (x' : List K), (∀ t, t ∈ x' ↔ xk.getD 0 0 < t ∧ t < xk.getD (xk.length - 1) 0 ∧ ∃ k : ℤ, t + k * (xk.getD (xk.length - 1) 0 - xk.getD 0 0) ∈ x) →
      ∀ (C : ℕ → List K) g, IsPwOn xk n C g → SmoothTo xk nc C → (∀ t ∈ x', g t = 0) → ∀ j, j + 1 < xk.length → ∀ q, (C j).getD q 0 = 0 := by
    intro x' hx' C g hg hsm hz
    refine C34_determined hs hj0 ?_ ?_ C g hg hsm hz
    · obtain ⟨T, hc, hT⟩ := h0
      refine ⟨T, hc, fun t ht => ?_⟩
      obtain ⟨a, b, c⟩ := hT t ht
      have := hj j0 hj0 t b c
      exact ⟨(hx' t).mpr ⟨this.1, this.2, a⟩, b, c.le⟩
    · intro j hj1 hne
      obtain ⟨T, hc, hT⟩ := hT j hj1 hne
      refine ⟨T, hc, fun t ht => ?_⟩
      obtain ⟨a, b, c⟩ := hT t ht
      have := hj j hj1 t b c
      exact ⟨(hx' t).mpr ⟨this.1, this.2, a⟩, b, c⟩
  have hpos : 0 < xk.getD (xk.length - 1) 0 - xk.getD 0 0 := sub_pos.mpr (pw_getD_lt hs (by omega) (by omega))
  obtain ⟨x', hx'⟩ : ∃ x' : List K, ∀ t, t ∈ x' ↔ xk.getD 0 0 < t ∧ t < xk.getD (xk.length - 1) 0 ∧ ∃ k : ℤ, t + k * (xk.getD (xk.length - 1) 0 - xk.getD 0 0) ∈ x := by
    refine ⟨(x.map fun t => pmod (t - xk.getD 0 0) (xk.getD (xk.length - 1) 0 - xk.getD 0 0) + xk.getD 0 0).filter fun t => xk.getD 0 0 < t, fun t => ?_⟩
    simp only [List.mem_filter, List.mem_map, decide_eq_true_eq]
    constructor
    · rintro ⟨⟨u, hu, rfl⟩, h1⟩
      refine ⟨h1, by have := pmod_lt (u - xk.getD 0 0) hpos; linarith, ⌊(u - xk.getD 0 0) / (xk.getD (xk.length - 1) 0 - xk.getD 0 0)⌋, ?_⟩
      convert hu using 1
      unfold pmod
      ring
    · rintro ⟨h1, h2, k, hk⟩
      refine ⟨⟨_, hk, ?_⟩, h1⟩
      rw [add_sub_right_comm, pmod_add _ hpos, pmod_eq_self (by linarith) (by linarith)]
      ring
  refine C34_periodic_succeeds hS hs h3 hy hsg hsig hor hnc (fun C g hg hsm hz => ?_) (fun C g hg hsm _ hz => ?_)
  · refine main x' hx' C (pwFun xk C) (pwFun_isPwOn hs fun j hj => (hg.2 j hj).1) ?_ ?_
    · intro j hj k hk
      have := hsm j (by omega) k hk
      rwa [perJump, Nat.mod_eq_of_lt (by omega)] at this
    · intro t ht
      obtain ⟨h1, h2, k, hk⟩ := (hx' t).mp ht
      have e := hz _ hk
      rw [hg.1, isPwPer_at hg hs (by omega) h1.le h2] at e
      exact e
  · refine main x' hx' C g hg hsm fun t ht => ?_
    obtain ⟨h1, h2, k, hk⟩ := (hx' t).mp ht
    have := hz _ hk (-k)
    push_cast at this
    rw [neg_mul, add_neg_cancel_right] at this
    exact this h1.le h2

end Npplus
