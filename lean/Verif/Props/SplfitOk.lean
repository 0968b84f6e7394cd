import Verif.Lemmas.SplfitNs
import Verif.Lemmas.PolyList
import Verif.Props.Splfit
import Verif.Props.PlfitOk

/-!
# C34: when `splfit` returns
-/

set_option linter.unusedSectionVars false

namespace Npplus
open Spec Finset Fit

variable {K : Type} [Field K] [LinearOrder K] [IsStrictOrderedRing K] [FloorRing K] {m : ℕ}
  {S : Scipy K} {xk x : List K} {y : List (Fin m → K)}
  {sigy : Option (List (Fin m → K))} {n : ℕ} {ncArg : Option ℤ} {lo hi : List (Fin m → K)} {per : Bool}
  {extrap : Option (ℕ × ℕ)} {out : SplineOut K (Fin m → K)} {cost : Cost K m}

theorem pw_getD_lt (hs : xk.Pairwise (· < ·)) {i j : ℕ} (h : i < j) (hj : j < xk.length) : xk.getD i 0 < xk.getD j 0 := by
  rw [List.getD_eq_getElem _ _ (by omega), List.getD_eq_getElem _ _ hj]
  exact List.pairwise_iff_getElem.mp hs i j (by omega) hj h

theorem pw_getD_le (hs : xk.Pairwise (· < ·)) {i j : ℕ} (h : i ≤ j) (hj : j < xk.length) : xk.getD i 0 ≤ xk.getD j 0 := by
  rcases h.lt_or_eq with h | rfl
  · exact (pw_getD_lt hs h hj).le
  · exact le_rfl

theorem index_unique (hs : xk.Pairwise (· < ·)) {j : ℕ} (hj : j + 1 < xk.length) {t : K}
    (h0 : xk.getD j 0 < t ∨ j = 0 ∧ xk.getD 0 0 = t) (h1 : t ≤ xk.getD (j + 1) 0) : index xk t = j := by
  have hb : xk.getD 0 0 ≤ t := by
    rcases h0 with h | ⟨-, h⟩
    · exact (pw_getD_le hs (Nat.zero_le j) (by omega)).trans h.le
    · exact h.le
  obtain ⟨a, b, c, d⟩ := index_spec hs (by omega) hb (h1.trans (pw_getD_le hs (show j + 1 ≤ xk.length - 1 by omega) (by omega)))
  rcases Nat.lt_trichotomy (index xk t) j with h | h | h
  · exfalso
    have := c.trans (pw_getD_le hs (show index xk t + 1 ≤ j by omega) (by omega))
    rcases h0 with h | ⟨h, -⟩
    · exact absurd this (not_le.mpr h)
    · omega
  · exact h
  · exfalso
    have e := le_antisymm b (h1.trans (pw_getD_le hs (show j + 1 ≤ index xk t by omega) (by omega)))
    have := d e
    omega

/-- The function with given coefficients. -/
def pwFun {V : Type} [AddCommGroup V] [Module K V] (xk : List K) (C : ℕ → List V) (t : K) : V :=
  polyVal (C (index xk t)) (t - xk.getD (index xk t) 0)

theorem pwFun_isPwOn {V : Type} [AddCommGroup V] [Module K V] (hs : xk.Pairwise (· < ·)) {C : ℕ → List V}
    (hC : ∀ j, j + 1 < xk.length → (C j).length = n + 1) : IsPwOn xk n C (pwFun xk C) := by
  intro j hj
  refine ⟨hC j hj, fun t h0 h1 => ?_⟩
  unfold pwFun
  rw [index_unique hs hj h0 h1]

theorem polyVal_scaled1 {C : List K} (hC : C.length = n + 1) {d : K} (hd : d ≠ 0) (t : K) :
    polyVal C t = ∑ q ∈ range (n + 1), (t * (1 / d)) ^ q * (d ^ q * C.getD q 0) := by
  unfold polyVal
  rw [hC]
  refine sum_congr rfl fun q _ => ?_
  rw [smul_eq_mul, mul_pow, ← mul_assoc, mul_assoc (t ^ q), ← mul_pow, one_div_mul_cancel hd, one_pow, mul_one]

theorem taylor_scaled1 {C : List K} (hC : C.length = n + 1) (d : K) (k : ℕ) :
    d ^ k * taylorCoeff C d k = ∑ q ∈ range (n + 1), (q.choose k : K) * (d ^ q * C.getD q 0) := by
  unfold taylorCoeff
  rw [hC, mul_sum]
  refine sum_congr rfl fun q _ => ?_
  rw [smul_eq_mul]
  rcases Nat.lt_or_ge q k with h | h
  · rw [Nat.choose_eq_zero_of_lt h]; simp
  · obtain ⟨t, ht⟩ : ∃ t, q = k + t := ⟨q - k, by omega⟩
    rw [ht, Nat.add_sub_cancel_left, pow_add]; ring

/-- **C34** — the fit exists (`splfit` returns) for increasing knots whenever (1) the data determine it: the only
piecewise polynomial with the required smoothness, zero end values and zero at all the data is zero; and (2) the
requirements are independent of each other: there are piecewise polynomials with any prescribed jumps and end values.
(`C34_independent_*` show that (2) holds unless both `lo` and `hi` are given with `lo.length + hi.length > n+1`.) -/
theorem C34_succeeds (hS : ScipyOK S) (hs : xk.Pairwise (· < ·)) (h2 : 2 ≤ xk.length)
    (hx : x ≠ []) (hy : y.length = x.length) (hsg : (sigy.getD (y.map fun _ _ => 1)).length = y.length)
    (hsig : ∀ v ∈ sigy.getD (y.map fun _ _ => 1), ∀ i, v i ≠ 0) {nc : ℕ}
    (hor : ncArg = none ∧ nc + 1 = n ∨ ncArg = some (nc : ℤ)) (hnc : nc < n)
    (hlo : lo.length ≤ nc + 1) (hhi : hi.length ≤ nc + 1)
    (hl : lo ≠ [] → ∀ t ∈ x, xk.getD 0 0 ≤ t) (hh : hi ≠ [] → ∀ t ∈ x, t ≤ xk.getD (xk.length - 1) 0)
    {xk' : List K} (hk : FitKnots xk x xk')
    (hdet : ∀ (C : ℕ → List K) g, IsPwOn xk' n C g → SmoothTo xk' nc C →
      EndValues xk' C (List.replicate lo.length 0) (List.replicate hi.length 0) → (∀ t ∈ x, g t = 0) →
      ∀ j, j + 1 < xk'.length → ∀ q, (C j).getD q 0 = 0)
    (hind : ∀ (a : ℕ → ℕ → K) (l h : List K), l.length = lo.length → h.length = hi.length → ∃ C : ℕ → List K,
      (∀ j, j + 1 < xk'.length → (C j).length = n + 1) ∧
      (∀ j, j + 2 < xk'.length → ∀ k ≤ nc, jump xk' C j k = a j k) ∧ EndValues xk' C l h) :
    ∃ out cost, splfit S xk x y sigy n ncArg lo hi false extrap = .ok (out, cost) := by
  obtain ⟨s, hset⟩ := setup_succeeds (extrap := extrap) hs h2 hx hl hh
  obtain ⟨-, e1, e2, e3, -, hnp⟩ := setup_ok hset hs
  obtain ⟨-, esx, hfk, h2', hlo0, hhi0⟩ := hnp rfl
  obtain rfl := hk.unique hfk
  have hne : xk ≠ [] := by intro h0; rw [h0] at h2; simp at h2
  have hmem : ∀ t < x.length, x.getD t 0 ∈ x := by
    intro t ht; rw [List.getD_eq_getElem _ _ ht]; exact List.getElem_mem _
  have hr : ∀ t < x.length, s.xk.getD 0 0 ≤ x.getD t 0 ∧ x.getD t 0 ≤ s.xk.getD (s.xk.length - 1) 0 :=
    fun t ht => fitKnots_range hfk hne hx (hmem t ht)
  have hix : ∀ t < x.length, index s.xk (x.getD t 0) < s.xk.length - 1 := fun t ht => by
    have := (index_spec hfk.inc h2' (hr t ht).1 (hr t ht).2).1
    omega
  have hdne : ∀ j, j + 1 < s.xk.length → Spl.width s.xk j ≠ 0 := fun j hj => Spl.width_ne hfk.inc hj
  set dx := Spl.width s.xk with hdx
  have hns : ∀ i, Nonsing (sysOf n nc s x.length y (sigy.getD (y.map fun _ _ => 1)) false i).n
      (symBand (n + 1) (sysOf n nc s x.length y (sigy.getD (y.map fun _ _ => 1)) false i).a) := by
    intro i
    unfold sysOf
    rw [esx, e1, e2, ← hdx]
    refine splSys_nonsing hnc (by omega) (by simpa using hlo) (by simpa using hhi) hix ?_ ?_ ?_
    · intro t ht
      have : (sigy.getD (y.map fun _ _ => 1)).getD t 0 i ≠ 0 := by
        refine hsig _ ?_ i
        rw [List.getD_eq_getElem _ _ (by omega)]; exact List.getElem_mem _
      exact one_div_pos.mpr (mul_self_pos.mpr this)
    · intro c c1 c2 c3 c4
      simp only [List.length_map] at c2 c3
      set C : ℕ → List K := fun j => (List.range (n + 1)).map fun q => c j q / dx j ^ q with hC
      have hCl : ∀ j, (C j).length = n + 1 := fun j => by simp [hC]
      have hCg : ∀ j q, q < n + 1 → (C j).getD q 0 = c j q / dx j ^ q := by
        intro j q hq
        rw [List.getD_eq_getElem _ _ (by rw [hCl]; exact hq)]; simp [hC]
      have hcs : ∀ j q, j + 1 < s.xk.length → q < n + 1 → dx j ^ q * (C j).getD q 0 = c j q := by
        intro j q hj hq
        rw [hCg j q hq, mul_div_cancel₀]
        exact pow_ne_zero _ (hdne j hj)
      have htay : ∀ j k, j + 1 < s.xk.length → dx j ^ k * rightCoeff s.xk C j k = ∑ q ∈ range (n + 1), (q.choose k : K) * c j q := by
        intro j k hj
        rw [rightCoeff]
        refine (taylor_scaled1 (hCl j) _ k).trans ?_
        exact sum_congr rfl fun q hq => by rw [← hcs j q hj (mem_range.mp hq)]
      have h0 := hdet C (pwFun s.xk C) (pwFun_isPwOn hfk.inc fun j _ => hCl j) ?_ ⟨?_, ?_⟩ ?_
      · intro j hj q hq
        rw [← hcs j q (by omega) hq, h0 j (by omega), mul_zero]
      · intro j hj k hk'
        unfold jump
        rw [sub_eq_zero]
        have a1 := c1 j k (by omega) (by omega)
        rw [← htay j k (by omega), ← hcs (j + 1) k (by omega) (by omega), ratOf, Nat.mod_eq_of_lt (by omega), ← mul_assoc,
          div_mul_cancel₀ _ (pow_ne_zero _ (hdne _ (by omega)))] at a1
        exact (mul_left_cancel₀ (pow_ne_zero _ (hdne j (by omega))) a1).symm
      · intro k hk'
        rw [List.length_replicate] at hk'
        rw [hCg 0 k (by omega), c3 k hk', zero_div, List.getD_eq_getElem _ _ (by simpa using hk')]; simp
      · intro k hk'
        rw [List.length_replicate] at hk'
        have a1 := c2 k hk'
        rw [show s.xk.length - 1 - 1 = s.xk.length - 2 by omega, ← htay _ k (by omega)] at a1
        rw [(mul_eq_zero.mp a1).resolve_left (pow_ne_zero _ (hdne _ (by omega))), List.getD_eq_getElem _ _ (by simpa using hk')]; simp
      · intro t ht
        obtain ⟨i, hi', rfl⟩ := List.getElem_of_mem ht
        rw [← List.getD_eq_getElem _ 0]
        have := hix i hi'
        unfold pwFun
        rw [polyVal_scaled1 (hCl _) (hdne (index s.xk (x.getD i 0)) (by omega))]
        refine Eq.trans ?_ (c4 i hi')
        exact sum_congr rfl fun q hq => by rw [hcs _ q (by omega) (mem_range.mp hq)]
    · intro a bl bh
      simp only [List.length_map]
      obtain ⟨C, hCl, hj, hE⟩ := hind (fun j k => - a j k / dx j ^ k) ((List.range lo.length).map fun k => bl k / dx 0 ^ k)
        ((List.range hi.length).map fun k => bh k / dx (s.xk.length - 2) ^ k) (by simp) (by simp)
      have htay : ∀ j k, j + 1 < s.xk.length → dx j ^ k * rightCoeff s.xk C j k = ∑ q ∈ range (n + 1), (q.choose k : K) * (dx j ^ q * (C j).getD q 0) := by
        intro j k hj
        exact taylor_scaled1 (hCl j hj) _ k
      refine ⟨fun j q => dx j ^ q * (C j).getD q 0, ?_, ?_, ?_⟩
      · intro j k hj' hk'
        have := hj j (by omega) k (by omega)
        have d1 := pow_ne_zero k (hdne j (by omega))
        have d2 := pow_ne_zero k (hdne (j + 1) (by omega))
        rw [← htay j k (by omega), ratOf, Nat.mod_eq_of_lt (by omega), ← mul_assoc, div_mul_cancel₀ _ d2, ← mul_sub]
        rw [jump, eq_div_iff d1] at this
        linear_combination -this
      · intro k hk'
        rw [show s.xk.length - 1 - 1 = s.xk.length - 2 by omega, ← htay _ k (by omega), hE.2 k (by simpa using hk'),
          List.getD_eq_getElem _ _ (by simpa using hk')]
        simp only [List.getElem_map, List.getElem_range]
        exact mul_div_cancel₀ _ (pow_ne_zero _ (hdne _ (by omega)))
      · intro k hk'
        beta_reduce
        rw [hE.1 k (by simpa using hk'), List.getD_eq_getElem _ _ (by simpa using hk')]
        simp only [List.getElem_map, List.getElem_range]
        exact mul_div_cancel₀ _ (pow_ne_zero _ (hdne _ (by omega)))
  have hcomp : ∀ i, ∃ z, solvesBanded S ⟨n + 2, (sysOf n nc s x.length y (sigy.getD (y.map fun _ _ => 1)) false i).n,
      (sysOf n nc s x.length y (sigy.getD (y.map fun _ _ => 1)) false i).a⟩
      (sysOf n nc s x.length y (sigy.getD (y.map fun _ _ => 1)) false i).n
      (sysOf n nc s x.length y (sigy.getD (y.map fun _ _ => 1)) false i).b true = .ok z :=
    fun i => C39_banded_succeeds hS (ab := ⟨n + 2, (sysOf n nc s x.length y (sigy.getD (y.map fun _ _ => 1)) false i).n,
      (sysOf n nc s x.length y (sigy.getD (y.map fun _ _ => 1)) false i).a⟩) _ true (hns i)
  choose z hz using hcomp
  unfold splfit
  simp only [bind, Except.bind, pure, Except.pure, throw, throwThe, MonadExceptOf.throw, hset]
  rw [if_neg (by omega)]
  try simp only
  rw [if_neg (by omega)]
  try simp only
  have hmax : ¬ (1 + (nc : ℤ) < max (lo.length : ℤ) (hi.length : ℤ)) := by omega
  have hz' := seqFin_ok.mpr hz
  simp only [sysOf] at hz'
  rcases hor with ⟨rfl, hn⟩ | rfl
  · have en : (n : ℤ) - 1 = nc := by omega
    simp only [en, e1, e2]
    rw [if_neg (by simpa using hmax)]
    simp only [Int.toNat_natCast]
    rw [if_neg (by omega)]
    simp only [e1, e2] at hz'
    simp only [Bool.false_eq_true, if_false, hz']
    exact ⟨_, _, rfl⟩
  · simp only [e1, e2]
    rw [if_neg (by omega)]
    try simp only
    rw [if_neg (by simpa using hmax)]
    simp only [Int.toNat_natCast]
    rw [if_neg (by omega)]
    simp only [e1, e2] at hz'
    simp only [Bool.false_eq_true, if_false, hz']
    exact ⟨_, _, rfl⟩

/-! ### the two hypotheses of `C34_succeeds` -/

open Polynomial in
/-- **C34** — requirement (2) of `C34_succeeds` holds when at most `n+1` end values are prescribed altogether. -/
theorem C34_independent {xk' : List K} (hs : xk'.Pairwise (· < ·)) (h2 : 2 ≤ xk'.length) {n nc : ℕ} (hnc : nc < n) (a : ℕ → ℕ → K)
    (l h : List K) (hlh : l.length + h.length ≤ n + 1) : ∃ C : ℕ → List K,
      (∀ j, j + 1 < xk'.length → (C j).length = n + 1) ∧
      (∀ j, j + 2 < xk'.length → ∀ k ≤ nc, jump xk' C j k = a j k) ∧ EndValues xk' C l h := by
  set P : ℕ → K[X] := fun j => Nat.rec (lpoly l)
    (fun j Q => taylor (xk'.getD (j + 1) 0 - xk'.getD j 0) Q + lpoly ((List.range (nc + 1)).map (a j))) j with hPd
  have hP0 : P 0 = lpoly l := rfl
  have hPs : ∀ j, P (j + 1) = taylor (xk'.getD (j + 1) 0 - xk'.getD j 0) (P j) + lpoly ((List.range (nc + 1)).map (a j)) := fun j => rfl
  clear_value P
  have hPdeg : ∀ j, (P j).natDegree ≤ n := by
    intro j
    induction j with
    | zero => rw [hP0]; exact lpoly_degree (by omega)
    | succ j ih =>
      rw [hPs]
      exact (natDegree_add_le _ _).trans (max_le (by rw [natDegree_taylor]; exact ih) (lpoly_degree (by simp; omega)))
  have hW : xk'.getD (xk'.length - 1) 0 - xk'.getD 0 0 ≠ 0 := sub_ne_zero.mpr (pw_getD_lt hs (by omega) (by omega)).ne'
  obtain ⟨D, d1, d2, d3⟩ := hermite2 n l.length hW (fun k => h.getD k 0 -
    (taylor (xk'.getD (xk'.length - 1) 0 - xk'.getD (xk'.length - 2) 0) (P (xk'.length - 2))).coeff k) h.length hlh
  have hQdeg : ∀ j, (P j + taylor (xk'.getD j 0 - xk'.getD 0 0) D).natDegree ≤ n := fun j =>
    (natDegree_add_le _ _).trans (max_le (hPdeg j) (by rw [natDegree_taylor]; exact d1))
  refine ⟨fun j => lcoef n (P j + taylor (xk'.getD j 0 - xk'.getD 0 0) D), fun j _ => lcoef_length _ _, ?_, ?_, ?_⟩
  · intro j hj k hk
    unfold jump rightCoeff
    rw [lcoef_getD (hQdeg _), taylor_lcoef (hQdeg _), map_add, taylor_taylor, hPs, sub_add_sub_cancel]
    simp only [coeff_add]
    have e : ((List.range (nc + 1)).map (a j)).getD k 0 = a j k := by
      rw [List.getD_eq_getElem _ _ (by simp; omega)]; simp
    rw [lpoly_coeff, e]
    ring
  · intro k hk
    rw [lcoef_getD (hQdeg _), coeff_add, sub_self, taylor_zero, d2 k hk, hP0, lpoly_coeff, add_zero]
  · intro k hk
    unfold rightCoeff
    rw [taylor_lcoef (hQdeg _), map_add, taylor_taylor, show xk'.length - 2 + 1 = xk'.length - 1 by omega, sub_add_sub_cancel, coeff_add, d3 k hk]
    ring

/-- `T` are data points with a distance `s` from `o`. -/
theorem card_sub (T : Finset K) (o : K) : (T.image fun t => t - o).card = T.card :=
  Finset.card_image_of_injective _ fun a b h => by simpa using h

open Polynomial in
/-- **C34** — requirement (1) of `C34_succeeds` holds when one interval contains `n+1` different data points and every
other one contains `n-nc` different data points strictly inside. -/
theorem C34_determined {xk' x : List K} (hs : xk'.Pairwise (· < ·)) {n nc : ℕ} {j0 : ℕ} (hj0 : j0 + 1 < xk'.length)
    (h0 : ∃ T : Finset K, n + 1 ≤ T.card ∧ ∀ t ∈ T, t ∈ x ∧ xk'.getD j0 0 < t ∧ t ≤ xk'.getD (j0 + 1) 0)
    (hT : ∀ j, j + 1 < xk'.length → j ≠ j0 → ∃ T : Finset K, n - nc ≤ T.card ∧ ∀ t ∈ T, t ∈ x ∧ xk'.getD j 0 < t ∧ t < xk'.getD (j + 1) 0)
    (C : ℕ → List K) (g : K → K) (hg : IsPwOn xk' n C g) (hsm : SmoothTo xk' nc C) (hz : ∀ t ∈ x, g t = 0) :
    ∀ j, j + 1 < xk'.length → ∀ q, (C j).getD q 0 = 0 := by
  have hdeg : ∀ j, j + 1 < xk'.length → (lpoly (C j)).natDegree ≤ n := fun j hj => lpoly_degree (hg j hj).1.le
  have hval : ∀ j, j + 1 < xk'.length → ∀ t ∈ x, xk'.getD j 0 < t → t ≤ xk'.getD (j + 1) 0 → (lpoly (C j)).eval (t - xk'.getD j 0) = 0 := by
    intro j hj t ht h1 h2
    rw [lpoly_eval, ← (hg j hj).2 t (Or.inl h1) h2, hz t ht]
  have base : lpoly (C j0) = 0 := by
    obtain ⟨T, hc, hT⟩ := h0
    refine zero_of_roots (a := 0) (by omega) (hdeg j0 hj0) (fun k hk => by omega) (T.image fun t => t - xk'.getD j0 0) ?_ (Or.inl rfl) ?_
    · rw [card_sub]; omega
    · intro t ht
      obtain ⟨s, hs', rfl⟩ := Finset.mem_image.mp ht
      exact hval j0 hj0 s (hT s hs').1 (hT s hs').2.1 (hT s hs').2.2
  have jmp : ∀ j, j + 2 < xk'.length → ∀ k ≤ nc, (lpoly (C (j + 1))).coeff k = (taylor (xk'.getD (j + 1) 0 - xk'.getD j 0) (lpoly (C j))).coeff k := by
    intro j hj k hk
    rw [lpoly_coeff, taylor_lpoly]
    exact sub_eq_zero.mp (hsm j hj k hk)
  have key : ∀ (o : K) (P : K[X]), P.natDegree ≤ n → (∀ k ≤ nc, P.coeff k = 0) → (∃ T : Finset K, n - nc ≤ T.card ∧ o ∉ T ∧ ∀ t ∈ T, P.eval (t - o) = 0) → P = 0 := by
    intro o P hP hk ⟨T, hc, ho, hr⟩
    rcases Nat.lt_or_ge n nc with hn | hn
    · ext k
      rcases Nat.lt_or_ge nc k with h | h
      · rw [coeff_eq_zero_of_natDegree_lt (by omega), coeff_zero]
      · rw [hk k h, coeff_zero]
    refine zero_of_roots (a := nc + 1) (by omega) hP (fun k h => hk k (by omega)) (T.image fun t => t - o) (by rw [card_sub]; omega) ?_ ?_
    · right
      intro hm
      obtain ⟨s, hs', h⟩ := Finset.mem_image.mp hm
      rw [sub_eq_zero] at h
      exact ho (h ▸ hs')
    · intro t ht
      obtain ⟨s, hs', rfl⟩ := Finset.mem_image.mp ht
      exact hr s hs'
  have up : ∀ d, j0 + d + 1 < xk'.length → lpoly (C (j0 + d)) = 0 := by
    intro d
    induction d with
    | zero => intro _; exact base
    | succ d ih =>
      intro hd
      have e := ih (by omega)
      obtain ⟨T, hc, hT⟩ := hT (j0 + (d + 1)) hd (by omega)
      refine key (xk'.getD (j0 + (d + 1)) 0) _ (hdeg _ hd) (fun k hk => ?_) ⟨T, hc, fun h => lt_irrefl _ (hT _ h).2.1, fun t ht => ?_⟩
      · rw [← add_assoc, jmp (j0 + d) (by omega) k hk, e, map_zero, coeff_zero]
      · exact hval _ hd t (hT t ht).1 (hT t ht).2.1 (hT t ht).2.2.le
  have down : ∀ d, d ≤ j0 → lpoly (C (j0 - d)) = 0 := by
    intro d
    induction d with
    | zero => intro _; exact base
    | succ d ih =>
      intro hd
      have e := ih (by omega)
      have hj1 : j0 - (d + 1) + 1 < xk'.length := by omega
      obtain ⟨T, hc, hT⟩ := hT (j0 - (d + 1)) hj1 (by omega)
      have := key (xk'.getD (j0 - (d + 1) + 1) 0) (taylor (xk'.getD (j0 - (d + 1) + 1) 0 - xk'.getD (j0 - (d + 1)) 0) (lpoly (C (j0 - (d + 1)))))
        (by rw [natDegree_taylor]; exact hdeg _ hj1) (fun k hk => ?_) ⟨T, hc, fun h => lt_irrefl _ (hT _ h).2.2, fun t ht => ?_⟩
      · exact (taylor_eq_zero _ _).mp this
      · rw [← jmp _ (by omega) k hk, show j0 - (d + 1) + 1 = j0 - d by omega, e, coeff_zero]
      · rw [taylor_eval, sub_add_sub_cancel]
        exact hval _ hj1 t (hT t ht).1 (hT t ht).2.1 (hT t ht).2.2.le
  intro j hj q
  refine lpoly_eq_zero ?_ q
  rcases Nat.le_total j0 j with h | h
  · have := up (j - j0) (by omega)
    rwa [show j0 + (j - j0) = j by omega] at this
  · have := down (j0 - j) (by omega)
    rwa [show j0 - (j0 - j) = j by omega] at this

/-- **C34** — the simplest sufficient condition: at most `n+1` end values altogether, `n+1` different data points in one
of the intervals between the knots of the fit, and `n-nc` (one, by default) different data points inside each other
interval. -/
theorem C34_succeeds_data (hS : ScipyOK S) (hs : xk.Pairwise (· < ·)) (h2 : 2 ≤ xk.length)
    (hx : x ≠ []) (hy : y.length = x.length) (hsg : (sigy.getD (y.map fun _ _ => 1)).length = y.length)
    (hsig : ∀ v ∈ sigy.getD (y.map fun _ _ => 1), ∀ i, v i ≠ 0) {nc : ℕ}
    (hor : ncArg = none ∧ nc + 1 = n ∨ ncArg = some (nc : ℤ)) (hnc : nc < n)
    (hlo : lo.length ≤ nc + 1) (hhi : hi.length ≤ nc + 1) (hlh : lo.length + hi.length ≤ n + 1)
    (hl : lo ≠ [] → ∀ t ∈ x, xk.getD 0 0 ≤ t) (hh : hi ≠ [] → ∀ t ∈ x, t ≤ xk.getD (xk.length - 1) 0)
    {xk' : List K} (hk : FitKnots xk x xk') {j0 : ℕ} (hj0 : j0 + 1 < xk'.length)
    (h0 : ∃ T : Finset K, n + 1 ≤ T.card ∧ ∀ t ∈ T, t ∈ x ∧ xk'.getD j0 0 < t ∧ t ≤ xk'.getD (j0 + 1) 0)
    (hT : ∀ j, j + 1 < xk'.length → j ≠ j0 → ∃ T : Finset K, n - nc ≤ T.card ∧
      ∀ t ∈ T, t ∈ x ∧ xk'.getD j 0 < t ∧ t < xk'.getD (j + 1) 0) :
    ∃ out cost, splfit S xk x y sigy n ncArg lo hi false extrap = .ok (out, cost) :=
  C34_succeeds hS hs h2 hx hy hsg hsig hor hnc hlo hhi hl hh hk
    (fun C g hg hsm _ hz => C34_determined hk.inc hj0 h0 hT C g hg hsm hz)
    (fun a l h e1 e2 => C34_independent hk.inc (by omega) hnc a l h (by omega))

end Npplus
