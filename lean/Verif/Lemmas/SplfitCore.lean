import Verif.Lemmas.SplfitPw

/-!
# The core of C33, C34, C35: `splfit`, not periodic
-/

set_option linter.unusedSectionVars false

namespace Npplus
open Spec Finset Fit

variable {K : Type} [Field K] [LinearOrder K] [IsStrictOrderedRing K] [FloorRing K] {m : ℕ}
  {S : Scipy K} {xk x : List K} {y : List (Fin m → K)}
  {sigy : Option (List (Fin m → K))} {n : ℕ} {ncArg : Option ℤ} {lo hi : List (Fin m → K)} {per : Bool}
  {extrap : Option (ℕ × ℕ)} {out : SplineOut K (Fin m → K)} {cost : Cost K m}

/-- The linear system of component `i`. -/
def sysOf (n nc : ℕ) (s : Setup K m) (N : ℕ) (y sig : List (Fin m → K)) (per : Bool) (i : Fin m) : Sys K :=
  splSys n nc (s.xk.length - 1) (Spl.width s.xk) N (fun t => index s.xk (s.x.getD t 0))
    (fun t => (s.x.getD t 0 - s.xk.getD (index s.xk (s.x.getD t 0)) 0) * (1 / Spl.width s.xk (index s.xk (s.x.getD t 0))))
    (fun t => y.getD t 0 i) (fun t => 1 / (sig.getD t 0 i * sig.getD t 0 i)) (s.lo.map (· i)) (s.hi.map (· i)) per

theorem splfit_ok (h : splfit S xk x y sigy n ncArg lo hi per extrap = .ok (out, cost)) :
    ∃ (s : Setup K m) (nc : ℕ) (z : Fin m → ℕ → K), setup xk x lo hi per extrap = .ok s ∧ y.length = x.length ∧
      (sigy.getD (y.map fun _ _ => 1)).length = y.length ∧ (ncArg = none ∧ nc + 1 = n ∨ ncArg = some (nc : ℤ)) ∧ nc < n ∧
      s.lo.length ≤ nc + 1 ∧ s.hi.length ≤ nc + 1 ∧
      (∀ i, (if per then solvesPeriodic S ⟨n + 2, (sysOf n nc s x.length y (sigy.getD (y.map fun _ _ => 1)) per i).n,
            (sysOf n nc s x.length y (sigy.getD (y.map fun _ _ => 1)) per i).a⟩
            (sysOf n nc s x.length y (sigy.getD (y.map fun _ _ => 1)) per i).n
            (sysOf n nc s x.length y (sigy.getD (y.map fun _ _ => 1)) per i).b true
          else solvesBanded S ⟨n + 2, (sysOf n nc s x.length y (sigy.getD (y.map fun _ _ => 1)) per i).n,
            (sysOf n nc s x.length y (sigy.getD (y.map fun _ _ => 1)) per i).a⟩
            (sysOf n nc s x.length y (sigy.getD (y.map fun _ _ => 1)) per i).n
            (sysOf n nc s x.length y (sigy.getD (y.map fun _ _ => 1)) per i).b true) = .ok (z i)) ∧
      cost = splCost n nc (s.xk.length - 1) (Spl.width s.xk) s.lo.length s.hi.length z per ∧
      (per = true → ∃ P, PerPwPoly.new (splAssemble n nc s.lo.length s.xk z) = .ok P ∧ out = .per P) ∧
      (per = false → out = .pw (Spl.truncEnds (s.extrap.getD (nc, nc)) (splAssemble n nc s.lo.length s.xk z))) := by
  unfold splfit at h
  simp only [bind, Except.bind, pure, Except.pure, throw, throwThe, MonadExceptOf.throw] at h
  split at h
  · cases h
  next s hs =>
  by_cases h2 : y.length ≠ x.length
  · rw [if_pos h2] at h; cases h
  rw [if_neg h2] at h
  try simp only [pure, Except.pure] at h
  by_cases h3 : (sigy.getD (y.map fun _ _ => 1)).length ≠ y.length
  · rw [if_pos h3] at h; cases h
  rw [if_neg h3] at h
  try simp only [pure, Except.pure] at h
  rcases ncArg with _ | nc
  · try simp only at h
    obtain ⟨nc, hnc⟩ : ∃ nc : ℤ, nc = (n : ℤ) - 1 := ⟨_, rfl⟩
    rw [← hnc] at h
    have hor : (none : Option ℤ) = none ∧ nc = (n : ℤ) - 1 ∨ (none : Option ℤ) = some nc := Or.inl ⟨rfl, hnc⟩
    by_cases h4 : 1 + nc < max (s.lo.length : ℤ) (s.hi.length : ℤ)
    · rw [if_pos (by simpa using h4)] at h; cases h
    rw [if_neg (by simpa using h4)] at h
    try simp only at h
    by_cases h5 : nc < 0
    · rw [if_pos h5] at h; cases h
    rw [if_neg h5] at h
    try simp only at h
    obtain ⟨k, rfl⟩ := Int.eq_ofNat_of_zero_le (not_lt.mp h5)
    simp only [Int.toNat_natCast] at h
    split at h
    · cases h
    next z hz =>
    have hlh : (s.lo.length : ℤ) ≤ k + 1 ∧ (s.hi.length : ℤ) ≤ k + 1 := by omega
    refine ⟨s, k, z, hs, by omega, by omega, ?_, by omega, by omega, by omega, seqFin_ok.mp hz, ?_⟩
    · rcases hor with ⟨a, b⟩ | a
      · exact Or.inl ⟨a, by omega⟩
      · exact Or.inr a
    · cases per with
      | true =>
        simp only [if_true] at h
        split at h
        · cases h
        next P hP =>
        cases h
        exact ⟨rfl, fun _ => ⟨P, hP, rfl⟩, by simp⟩
      | false =>
        simp only [Bool.false_eq_true, if_false] at h
        cases h
        exact ⟨rfl, by simp, fun _ => rfl⟩
  · try simp only at h
    by_cases hk : nc < 0 ∨ (n : ℤ) ≤ nc
    · rw [if_pos hk] at h; cases h
    rw [if_neg hk] at h
    try simp only at h
    have hor : some nc = none ∧ nc = (n : ℤ) - 1 ∨ some nc = some nc := Or.inr rfl
    by_cases h4 : 1 + nc < max (s.lo.length : ℤ) (s.hi.length : ℤ)
    · rw [if_pos (by simpa using h4)] at h; cases h
    rw [if_neg (by simpa using h4)] at h
    try simp only at h
    by_cases h5 : nc < 0
    · rw [if_pos h5] at h; cases h
    rw [if_neg h5] at h
    try simp only at h
    obtain ⟨k, rfl⟩ := Int.eq_ofNat_of_zero_le (not_lt.mp h5)
    simp only [Int.toNat_natCast] at h
    split at h
    · cases h
    next z hz =>
    have hlh : (s.lo.length : ℤ) ≤ k + 1 ∧ (s.hi.length : ℤ) ≤ k + 1 := by omega
    refine ⟨s, k, z, hs, by omega, by omega, ?_, by omega, by omega, by omega, seqFin_ok.mp hz, ?_⟩
    · rcases hor with ⟨a, b⟩ | a
      · exact Or.inl ⟨a, by omega⟩
      · exact Or.inr a
    · cases per with
      | true =>
        simp only [if_true] at h
        split at h
        · cases h
        next P hP =>
        cases h
        exact ⟨rfl, fun _ => ⟨P, hP, rfl⟩, by simp⟩
      | false =>
        simp only [Bool.false_eq_true, if_false] at h
        cases h
        exact ⟨rfl, by simp, fun _ => rfl⟩

theorem sum_cast3 {a b : ℕ} {F : ℕ → ℕ → Fin m → K} :
    ∑ i, ∑ j ∈ range a, ∑ k ∈ range b, F j k i = ∑ j ∈ range a, ∑ k ∈ range b, ∑ i, F j k i := by
  rw [sum_comm]
  exact sum_congr rfl fun j _ => sum_comm

/-- Everything about the non periodic fit. -/
theorem splfit_core (hS : ScipyOK S) (hs : xk.Pairwise (· < ·))
    (h : splfit S xk x y sigy n ncArg lo hi false extrap = .ok (out, cost)) :
    ∃ p xk' nc, out = .pw p ∧ FitKnots xk x xk' ∧ 2 ≤ xk'.length ∧ WF p ∧ p.xk = xk' ∧ p.n = n + 1 ∧
      (ncArg = none ∧ nc + 1 = n ∨ ncArg = some (nc : ℤ)) ∧ nc < n ∧ lo.length ≤ nc + 1 ∧ hi.length ≤ nc + 1 ∧
      (lo ≠ [] → xk'.getD 0 0 = xk.getD 0 0) ∧ (hi ≠ [] → xk'.getD (xk'.length - 1) 0 = xk.getD (xk.length - 1) 0) ∧
      (∀ k, (piece p 0).getD k 0 = if k ≤ (extrap.getD (nc, nc)).1 then (piece p 1).getD k 0 else 0) ∧
      (∀ k ≤ n, (piece p xk'.length).getD k 0 = if k ≤ (extrap.getD (nc, nc)).2 then
        rightCoeff xk' (fun j => piece p (j + 1)) (xk'.length - 2) k else 0) ∧
      IsPwOn xk' n (fun j => piece p (j + 1)) p.call ∧ SmoothTo xk' nc (fun j => piece p (j + 1)) ∧
      EndValues xk' (fun j => piece p (j + 1)) lo hi ∧
      cost.inner.length = nc + 1 ∧ (∀ k ≤ nc, (cost.inner.getD k []).length = xk'.length - 2) ∧ cost.lo.length = lo.length ∧
      cost.hi.length = hi.length ∧
      (∀ t < x.length, xk'.getD 0 0 ≤ x.getD t 0 ∧ x.getD t 0 ≤ xk'.getD (xk'.length - 1) 0) ∧
      ∀ C' g, IsPwOn xk' n C' g →
        chi2 x y (sigy.getD (y.map fun _ _ => 1)) g = chi2 x y (sigy.getD (y.map fun _ _ => 1)) p.call +
          ∑ t ∈ range x.length, ∑ i, ((g (x.getD t 0) i - p.call (x.getD t 0) i) / (sigy.getD (y.map fun _ _ => 1)).getD t 0 i) ^ 2 -
          ∑ j ∈ range (xk'.length - 2), ∑ k ∈ range (nc + 1), ∑ i, (cost.inner.getD k []).getD j 0 i * jump xk' C' j k i -
          ∑ k ∈ range lo.length, ∑ i, cost.lo.getD k 0 i * ((C' 0).getD k 0 i - lo.getD k 0 i) -
          ∑ k ∈ range hi.length, ∑ i, cost.hi.getD k 0 i * (hi.getD k 0 i - rightCoeff xk' C' (xk'.length - 2) k i) := by
  obtain ⟨s, nc, z, hset, hy, hsg, hor, hnc, hlo, hhi, hz, hcost, -, hout⟩ := splfit_ok h
  obtain ⟨h2, e1, e2, e3, -, hnp⟩ := setup_ok hset hs
  obtain ⟨hx, esx, hfk, h2', hlo0, hhi0⟩ := hnp rfl
  have hout := hout rfl
  simp only [Bool.false_eq_true, if_false, sysOf, e1, e2, esx] at hz
  rw [e1, e2] at hcost
  rw [e1, e3] at hout
  rw [e1] at hlo
  rw [e2] at hhi
  generalize s.xk = xk' at *
  set dx := Spl.width xk' with hdx
  have hdne : ∀ j, j + 1 < xk'.length → dx j ≠ 0 := fun j hj => Spl.width_ne hfk.inc hj
  set e := extrap.getD (nc, nc) with he
  set p := Spl.truncEnds e (splAssemble n nc lo.length xk' z) with hp
  have hn1 : 1 ≤ n := by omega
  have hwf : WF p := Spl.truncEnds_WF (splAssemble_WF hn1 hfk.inc h2')
  obtain ⟨q0, q1, q2⟩ := splTrunc_pieces (n := n) (nc := nc) (nlo := lo.length) (xk := xk') (z := z) (e := e) hn1 h2'
  rw [← hp, ← hdx] at q0 q1 q2
  have hpx : p.xk = xk' := rfl
  have hpn : p.n = n + 1 := rfl
  have hmem : ∀ t < x.length, x.getD t 0 ∈ x := by
    intro t ht; rw [List.getD_eq_getElem _ _ ht]; exact List.getElem_mem _
  have hne : xk ≠ [] := by intro h0; rw [h0] at h2; simp at h2
  have hr : ∀ t < x.length, xk'.getD 0 0 ≤ x.getD t 0 ∧ x.getD t 0 ≤ xk'.getD (xk'.length - 1) 0 :=
    fun t ht => fitKnots_range hfk hne hx (hmem t ht)
  have hpiece0 : ∀ k, (piece p 0).getD k 0 = if k ≤ e.1 then (piece p 1).getD k 0 else 0 := by
    intro k; rw [q0, q1 0 (by omega), Spl.trunc_getD]
  have hpieceL : ∀ k ≤ n, (piece p xk'.length).getD k 0 = if k ≤ e.2 then
        rightCoeff xk' (fun j => piece p (j + 1)) (xk'.length - 2) k else 0 := by
    intro k hk
    rw [q2, Spl.trunc_getD, tcList_getD _ _ _ _ hk, rightCoeff, q1 (xk'.length - 2) (by omega)]
    rfl
  have hpw : IsPwOn xk' n (fun j => piece p (j + 1)) p.call := isPwOn_call hwf (by rw [hpiece0, if_pos (Nat.zero_le _)])
  -- the solution, component by component
  have hsol := fun i => splSol_spec hnc (show 1 ≤ xk'.length - 1 by omega) (by simpa using hlo) (by simpa using hhi)
    (C39_solves_banded hS (hz i))
    (fun _ _ => rfl) (fun _ _ => rfl)
  simp only [List.length_map] at hsol
  have hcs : ∀ i j q, j + 1 < xk'.length → q < n + 1 → dx j ^ q * (piece p (j + 1)).getD q 0 i = z i (lo.length + (j * (n + 2 + nc) + q)) := by
    intro i j q hj hq
    rw [q1 j hj, splInner_getD j hq, mul_div_cancel₀]
    exact pow_ne_zero _ (hdne j hj)
  have hplen : ∀ j, j + 1 < xk'.length → (piece p (j + 1)).length = n + 1 := fun j hj => by rw [q1 j hj, splInner_length]
  have htay : ∀ i j k, j + 1 < xk'.length → dx j ^ k * rightCoeff xk' (fun j => piece p (j + 1)) j k i =
      ∑ q ∈ range (n + 1), (q.choose k : K) * z i (lo.length + (j * (n + 2 + nc) + q)) := by
    intro i j k hj
    rw [rightCoeff]
    refine (taylor_scaled (hplen j hj) i _ k).trans ?_
    exact sum_congr rfl fun q hq => by rw [← hcs i j q hj (mem_range.mp hq)]
  have hlget : ∀ i k, k < lo.length → (lo.map (· i)).getD k 0 = lo.getD k 0 i := by
    intro i k hk
    rw [List.getD_eq_getElem _ _ (by simpa using hk), List.getD_eq_getElem _ _ hk]; simp
  have hhget : ∀ i k, k < hi.length → (hi.map (· i)).getD k 0 = hi.getD k 0 i := by
    intro i k hk
    rw [List.getD_eq_getElem _ _ (by simpa using hk), List.getD_eq_getElem _ _ hk]; simp
  have hsmooth : SmoothTo xk' nc (fun j => piece p (j + 1)) := by
    intro j hj k hk
    unfold jump
    rw [sub_eq_zero]
    funext i
    have a1 := (hsol i).1 j k (by omega) (by omega)
    rw [← htay i j k (by omega), ← hcs i (j + 1) k (by omega) (by omega), ratOf, Nat.mod_eq_of_lt (by omega), ← mul_assoc,
      div_mul_cancel₀ _ (pow_ne_zero _ (hdne _ (by omega)))] at a1
    exact (mul_left_cancel₀ (pow_ne_zero _ (hdne j (by omega))) a1).symm
  have hend : EndValues xk' (fun j => piece p (j + 1)) lo hi := by
    constructor
    · intro k hk
      funext i
      have a1 := (hsol i).2.2.1 k hk
      have a2 := hcs i 0 k (by omega) (by omega)
      rw [← a2, hlget i k hk, mul_comm] at a1
      exact mul_right_cancel₀ (pow_ne_zero _ (hdne 0 (by omega))) a1
    · intro k hk
      funext i
      have a1 := (hsol i).2.1 k hk
      rw [show xk'.length - 1 - 1 = xk'.length - 2 by omega, ← htay i _ k (by omega), hhget i k hk, mul_comm] at a1
      exact mul_right_cancel₀ (pow_ne_zero _ (hdne _ (by omega))) a1
  refine ⟨p, xk', nc, hout, hfk, h2', hwf, hpx, hpn, hor, hnc, hlo, hhi, hlo0, hhi0, hpiece0, hpieceL, hpw, hsmooth, hend, ?_, ?_, ?_, ?_, hr, ?_⟩
  · rw [hcost]; simp [splCost]
  · intro k hk
    rw [hcost]
    simp only [splCost, Bool.false_eq_true, if_false]
    rw [List.getD_eq_getElem _ _ (by simp; omega)]
    simp; omega
  · rw [hcost]; simp [splCost]
  · rw [hcost]; simp [splCost]
  intro C' g hg
  have hc1 : ∀ i j k, j + 2 < xk'.length → k < nc + 1 → (cost.inner.getD k []).getD j 0 i =
      -2 * z i (lo.length + (j * (n + 2 + nc) + (n + 1 + k))) * dx j ^ k := by
    intro i j k hj hk
    rw [hcost]
    simp only [splCost, Bool.false_eq_true, if_false]
    rw [List.getD_eq_getElem (List.map _ (List.range (nc + 1))) _ (by simpa using hk)]
    simp only [List.getElem_map, List.getElem_range]
    rw [List.getD_eq_getElem _ _ (by simp; omega)]
    simp only [List.getElem_map, List.getElem_range, add_assoc]
  have hc2 : ∀ i k, k < lo.length → cost.lo.getD k 0 i = -2 * z i k * dx 0 ^ k := by
    intro i k hk
    rw [hcost]
    simp only [splCost, Bool.false_eq_true, if_false]
    rw [List.getD_eq_getElem _ _ (by simpa using hk)]
    simp
  have hc3 : ∀ i k, k < hi.length → cost.hi.getD k 0 i =
      -2 * z i (lo.length + ((xk'.length - 2) * (n + 2 + nc) + (n + 1 + k))) * dx (xk'.length - 2) ^ k := by
    intro i k hk
    rw [hcost]
    simp only [splCost, Bool.false_eq_true, if_false]
    rw [List.getD_eq_getElem _ _ (by simpa using hk)]
    simp only [List.getElem_map, List.getElem_range, add_assoc, show xk'.length - 1 - 1 = xk'.length - 2 by omega]
  have hix : ∀ t < x.length, index xk' (x.getD t 0) < xk'.length - 1 := fun t ht => by
    have := (index_spec hfk.inc h2' (hr t ht).1 (hr t ht).2).1
    omega
  -- one component
  have comp : ∀ i, ∑ t ∈ range x.length, ((g (x.getD t 0) i - y.getD t 0 i) / (sigy.getD (y.map fun _ _ => 1)).getD t 0 i) ^ 2 =
      ∑ t ∈ range x.length, ((p.call (x.getD t 0) i - y.getD t 0 i) / (sigy.getD (y.map fun _ _ => 1)).getD t 0 i) ^ 2 +
      ∑ t ∈ range x.length, ((g (x.getD t 0) i - p.call (x.getD t 0) i) / (sigy.getD (y.map fun _ _ => 1)).getD t 0 i) ^ 2 -
      ∑ j ∈ range (xk'.length - 2), ∑ k ∈ range (nc + 1), (cost.inner.getD k []).getD j 0 i * jump xk' C' j k i -
      ∑ k ∈ range lo.length, cost.lo.getD k 0 i * ((C' 0).getD k 0 i - lo.getD k 0 i) -
      ∑ k ∈ range hi.length, cost.hi.getD k 0 i * (hi.getD k 0 i - rightCoeff xk' C' (xk'.length - 2) k i) := by
    intro i
    generalize (sigy.getD (y.map fun _ _ => 1)) = sig at hz hsol ⊢
    obtain ⟨-, -, -, stat⟩ := hsol i
    have stat := stat (fun j q => dx j ^ q * ((C' j).getD q 0 i - (piece p (j + 1)).getD q 0 i))
    rw [data_form hix] at stat
    have hv : ∀ t ∈ range x.length, p.call (x.getD t 0) i = ∑ q ∈ range (n + 1),
        ((x.getD t 0 - xk'.getD (index xk' (x.getD t 0)) 0) * (1 / dx (index xk' (x.getD t 0)))) ^ q *
          z i (lo.length + (index xk' (x.getD t 0) * (n + 2 + nc) + q)) := by
      intro t ht
      have ht := mem_range.mp ht
      have hj := hix t ht
      rw [isPwOn_at hpw hfk.inc h2' (hr t ht).1 (hr t ht).2, polyVal_scaled (hplen _ (by omega)) i (hdne _ (show index xk' (x.getD t 0) + 1 < _ by omega))]
      exact sum_congr rfl fun q hq => by rw [hcs i _ q (by omega) (mem_range.mp hq)]
    have hgv : ∀ t ∈ range x.length, g (x.getD t 0) i = (∑ q ∈ range (n + 1),
        ((x.getD t 0 - xk'.getD (index xk' (x.getD t 0)) 0) * (1 / dx (index xk' (x.getD t 0)))) ^ q *
          z i (lo.length + (index xk' (x.getD t 0) * (n + 2 + nc) + q))) +
        ∑ q ∈ range (n + 1), ((x.getD t 0 - xk'.getD (index xk' (x.getD t 0)) 0) * (1 / dx (index xk' (x.getD t 0)))) ^ q *
          (dx (index xk' (x.getD t 0)) ^ q * ((C' (index xk' (x.getD t 0))).getD q 0 i - (piece p (index xk' (x.getD t 0) + 1)).getD q 0 i)) := by
      intro t ht
      have ht := mem_range.mp ht
      have hj := hix t ht
      rw [isPwOn_at hg hfk.inc h2' (hr t ht).1 (hr t ht).2, polyVal_scaled (hg _ (by omega)).1 i (hdne _ (show index xk' (x.getD t 0) + 1 < _ by omega)),
        ← sum_add_distrib]
      refine sum_congr rfl fun q hq => ?_
      rw [← hcs i _ q (by omega) (mem_range.mp hq)]
      ring
    have hsq := square_form (N := x.length) (w := fun t => 1 / (sig.getD t 0 i * sig.getD t 0 i)) (y := fun t => y.getD t 0 i)
      (fun t => ∑ q ∈ range (n + 1),
        ((x.getD t 0 - xk'.getD (index xk' (x.getD t 0)) 0) * (1 / dx (index xk' (x.getD t 0)))) ^ q *
          z i (lo.length + (index xk' (x.getD t 0) * (n + 2 + nc) + q)))
      (fun t => ∑ q ∈ range (n + 1), ((x.getD t 0 - xk'.getD (index xk' (x.getD t 0)) 0) * (1 / dx (index xk' (x.getD t 0)))) ^ q *
          (dx (index xk' (x.getD t 0)) ^ q * ((C' (index xk' (x.getD t 0))).getD q 0 i - (piece p (index xk' (x.getD t 0) + 1)).getD q 0 i)))
    have l1 : ∑ t ∈ range x.length, ((g (x.getD t 0) i - y.getD t 0 i) / sig.getD t 0 i) ^ 2 = _ :=
      (sum_congr rfl fun t ht => by rw [weight_sq, hgv t ht]).trans hsq
    have l2 : ∑ t ∈ range x.length, ((p.call (x.getD t 0) i - y.getD t 0 i) / sig.getD t 0 i) ^ 2 = _ :=
      sum_congr rfl fun t ht => by rw [weight_sq, hv t ht]
    have l3 : ∑ t ∈ range x.length, ((g (x.getD t 0) i - p.call (x.getD t 0) i) / sig.getD t 0 i) ^ 2 = _ :=
      sum_congr rfl fun t ht => by rw [weight_sq, hgv t ht, hv t ht, add_sub_cancel_left]
    rw [l1, l2, l3]
    -- the constraint terms
    have t1 : ∑ j ∈ range (xk'.length - 1 - 1), ∑ k ∈ range (nc + 1), z i (lo.length + (j * (n + 2 + nc) + (n + 1 + k))) *
        (∑ q ∈ range (n + 1), (q.choose k : K) * (dx j ^ q * ((C' j).getD q 0 i - (piece p (j + 1)).getD q 0 i)) -
          ratOf (xk'.length - 1) dx j k * (dx (j + 1) ^ k * ((C' (j + 1)).getD k 0 i - (piece p (j + 1 + 1)).getD k 0 i))) =
        ∑ j ∈ range (xk'.length - 2), ∑ k ∈ range (nc + 1), (1 / 2) * ((cost.inner.getD k []).getD j 0 i * jump xk' C' j k i) := by
      rw [show xk'.length - 1 - 1 = xk'.length - 2 by omega]
      refine sum_congr rfl fun j hj => sum_congr rfl fun k hk => ?_
      have hj := mem_range.mp hj
      have hk := mem_range.mp hk
      rw [hc1 i j k (by omega) hk]
      simp only [mul_sub, sum_sub_distrib]
      rw [← taylor_scaled (hg j (by omega)).1 i (dx j) k, ← taylor_scaled (hplen j (by omega)) i (dx j) k, ratOf, Nat.mod_eq_of_lt (by omega)]
      have hsm := congrFun (hsmooth j (by omega) k (by omega)) i
      simp only [jump, rightCoeff, Pi.sub_apply, Pi.zero_apply] at hsm ⊢
      change _ - taylorCoeff (piece p (j + 1)) (dx j) k i = 0 at hsm
      change _ = 1 / 2 * (-2 * _ * dx j ^ k * (_ - taylorCoeff (C' j) (dx j) k i))
      rw [sub_eq_zero] at hsm
      rw [← hsm]
      have := pow_ne_zero k (hdne (j + 1) (by omega))
      field_simp
      ring
    have t2 : ∑ k ∈ range hi.length, z i (lo.length + ((xk'.length - 1 - 1) * (n + 2 + nc) + (n + 1 + k))) *
        ∑ q ∈ range (n + 1), (q.choose k : K) * (dx (xk'.length - 1 - 1) ^ q *
          ((C' (xk'.length - 1 - 1)).getD q 0 i - (piece p (xk'.length - 1 - 1 + 1)).getD q 0 i)) =
        ∑ k ∈ range hi.length, (1 / 2) * (cost.hi.getD k 0 i * (hi.getD k 0 i - rightCoeff xk' C' (xk'.length - 2) k i)) := by
      rw [show xk'.length - 1 - 1 = xk'.length - 2 by omega]
      refine sum_congr rfl fun k hk => ?_
      have hk := mem_range.mp hk
      rw [hc3 i k hk]
      simp only [mul_sub, sum_sub_distrib]
      rw [← taylor_scaled (hg (xk'.length - 2) (by omega)).1 i _ k, ← taylor_scaled (hplen (xk'.length - 2) (by omega)) i _ k]
      have hsm := congrFun (hend.2 k hk) i
      simp only [rightCoeff] at hsm ⊢
      change taylorCoeff (piece p (xk'.length - 2 + 1)) (dx (xk'.length - 2)) k i = _ at hsm
      change _ = 1 / 2 * (-2 * _ * dx (xk'.length - 2) ^ k * _) - 1 / 2 * (-2 * _ * dx (xk'.length - 2) ^ k * taylorCoeff (C' (xk'.length - 2)) (dx (xk'.length - 2)) k i)
      rw [← hsm]
      ring
    have t3 : ∑ k ∈ range lo.length, z i k * (dx 0 ^ k * ((C' 0).getD k 0 i - (piece p (0 + 1)).getD k 0 i)) =
        ∑ k ∈ range lo.length, -(1 / 2) * (cost.lo.getD k 0 i * ((C' 0).getD k 0 i - lo.getD k 0 i)) := by
      refine sum_congr rfl fun k hk => ?_
      have hk := mem_range.mp hk
      rw [hc2 i k hk, ← hend.1 k hk]
      ring
    beta_reduce at stat
    rw [t1, t2, t3] at stat
    simp only [← mul_sum] at stat
    linear_combination 2 * stat
  unfold chi2
  rw [sum_comm, sum_comm (s := range x.length) (t := univ), sum_comm (s := range x.length) (t := univ), sum_congr rfl fun i _ => comp i]
  simp only [sum_sub_distrib, sum_add_distrib]
  rw [sum_cast3, sum_comm (s := univ) (t := range lo.length), sum_comm (s := univ) (t := range hi.length)]

end Npplus
