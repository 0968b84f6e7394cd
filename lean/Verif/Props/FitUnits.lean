import Verif.Props.FitLinear
import Verif.Props.SplineUniq

/-!
# C122: fits do not depend on the units of x
-/

set_option linter.unusedSectionVars false

namespace Npplus

open Spec Finset PwPoly Fit LinAux MonoAux SameAux UniqAux

variable {K : Type} [Field K] [LinearOrder K] [IsStrictOrderedRing K] [FloorRing K] {m : ℕ}

namespace UnitAux

variable {V : Type} [AddCommGroup V] [Module K V] {xk x : List K} {n nc : ℕ} {g : K → V} {lo hi : List V}

theorem adm_affine {a : K} (ha : 0 < a) (b : K) (h2 : 2 ≤ xk.length) (h : Adm xk n nc lo hi g) :
    Adm (xk.map fun t => a * t + b) n nc (scaleC a lo) (scaleC a hi) (fun t => g ((t - b) / a)) := by
  obtain ⟨C, hg, hsm, he⟩ := h
  have ha0 := ha.ne'
  have hx : ∀ j < xk.length, (xk.map fun t => a * t + b).getD j 0 = a * xk.getD j 0 + b := fun j hj => getD_map_affine a b hj
  have hR : ∀ j, j + 1 < xk.length → ∀ k, rightCoeff (xk.map fun t => a * t + b) (fun j => scaleC a (C j)) j k = (1 / a ^ k) • rightCoeff xk C j k := by
    intro j hj k
    unfold rightCoeff
    rw [hx _ hj, hx j (by omega), show a * xk.getD (j + 1) 0 + b - (a * xk.getD j 0 + b) = a * (xk.getD (j + 1) 0 - xk.getD j 0) by ring,
      scaleC_taylor ha0]
  refine ⟨fun j => scaleC a (C j), fun j hj => ?_, fun j hj k hk => ?_, fun k hk => ?_, fun k hk => ?_⟩
  · rw [List.length_map] at hj
    refine ⟨by rw [scaleC_length]; exact (hg j hj).1, fun t t1 t2 => ?_⟩
    rw [hx _ (by omega)] at t1
    rw [hx _ hj] at t2
    rw [hx _ (by omega)]
    have e : t = a * ((t - b) / a) + b := by field_simp; ring
    have := (hg j hj).2 ((t - b) / a) ?_ ?_
    · beta_reduce
      rw [this, ← taylorCoeff_zero (K := K), ← taylorCoeff_zero (K := K)]
      conv_rhs => rw [e]
      rw [show a * ((t - b) / a) + b - (a * xk.getD j 0 + b) = a * ((t - b) / a - xk.getD j 0) by ring, scaleC_taylor ha0]
      simp
    · rcases t1 with t1 | ⟨rfl, t1⟩
      · left
        rw [lt_div_iff₀ ha]; linarith
      · right
        refine ⟨rfl, ?_⟩
        rw [hx _ (by omega)] at t1
        rw [eq_div_iff ha0, ← t1]; ring
    · rw [div_le_iff₀ ha]; linarith
  · rw [List.length_map] at hj
    have := hsm j hj k hk
    unfold jump at this ⊢
    rw [hR j (by omega), scaleC_getD, sub_eq_zero.mp this, sub_self]
  · rw [scaleC_length] at hk
    rw [scaleC_getD, scaleC_getD, he.1 k hk]
  · rw [scaleC_length] at hk
    rw [List.length_map, hR _ (by omega), scaleC_getD, he.2 k hk]

theorem scaleC_inv {a : K} (ha : a ≠ 0) (l : List V) : scaleC a⁻¹ (scaleC a l) = l := by
  refine Spl.list_ext_getD 0 (by simp [scaleC_length]) fun k _ => ?_
  rw [scaleC_getD, scaleC_getD, smul_smul, ← mul_comm, ← mul_div_mul_comm, ← mul_pow, mul_inv_cancel₀ ha]
  simp

theorem knots_affine {a : K} (ha : 0 < a) (b : K) {xk' : List K} (h : FitKnots xk x xk') :
    FitKnots (xk.map fun t => a * t + b) (x.map fun t => a * t + b) (xk'.map fun t => a * t + b) := by
  have hlt : ∀ s t, a * s + b < a * t + b ↔ s < t := fun s t => by
    rw [add_lt_add_iff_right, mul_lt_mul_iff_right₀ ha]
  have hle : ∀ s t, a * s + b ≤ a * t + b ↔ s ≤ t := fun s t => by
    rw [add_le_add_iff_right, mul_le_mul_iff_right₀ ha]
  have hinj : ∀ s t, a * s + b = a * t + b ↔ s = t := fun s t => by
    rw [add_left_inj, mul_right_inj' ha.ne']
  have hmem : ∀ (l : List K) t, a * t + b ∈ l.map (fun t => a * t + b) ↔ t ∈ l := by
    intro l t
    rw [List.mem_map]
    constructor
    · rintro ⟨s, hs, e⟩
      rwa [← (hinj s t).mp e]
    · exact fun h => ⟨t, h, rfl⟩
  refine ⟨?_, fun t => ?_⟩
  · rw [List.pairwise_map]
    exact h.inc.imp fun h => (hlt _ _).mpr h
  · obtain ⟨s, rfl⟩ : ∃ s, t = a * s + b := ⟨(t - b) / a, by field_simp; ring⟩
    rw [hmem, hmem, hmem, h.mem]
    simp only [List.forall_mem_map, hlt, hle]

end UnitAux

open UnitAux

variable {S : Scipy K} {xk x : List K} {y : List (Fin m → K)} {sigy : Option (List (Fin m → K))}
  {n : ℕ} {nc : Option ℤ} {lo hi : List (Fin m → K)} {e1 e2 : Option (ℕ × ℕ)} {p q : PwPoly K (Fin m → K)}
  {c1 c2 : Cost K m}

/-- **C122** — measuring `x` (points and knots) from another origin in other units, with the prescribed derivatives in the new units,
changes neither the values of the fit at the points nor chi2. -/
theorem C122_splfit (hS : ScipyOK S) (hs : xk.Pairwise (· < ·)) (hsig : ∀ l, sigy = some l → ∀ v ∈ l, ∀ i, v i ≠ 0) {a b : K} (ha : 0 < a)
    (h1 : splfit S xk x y sigy n nc lo hi false e1 = .ok (.pw p, c1))
    (h2 : splfit S (xk.map fun t => a * t + b) (x.map fun t => a * t + b) y sigy n nc
      (lo.mapIdx fun k v => (1 / a ^ k) • v) (hi.mapIdx fun k v => (1 / a ^ k) • v) false e2 = .ok (.pw q, c2)) :
    (∀ t ∈ x, q.call (a * t + b) = p.call t) ∧
      chi2 (x.map fun t => a * t + b) y (sigy.getD (y.map fun _ _ => 1)) q.call = chi2 x y (sigy.getD (y.map fun _ _ => 1)) p.call := by
  have hs' : (xk.map fun t => a * t + b).Pairwise (· < ·) := by
    rw [List.pairwise_map]
    exact hs.imp fun h => by nlinarith
  have ha0 := ha.ne'
  obtain ⟨s, -, -, hset, -⟩ := splfit_ok h1
  obtain ⟨-, -, -, -, -, hnp⟩ := setup_ok hset hs
  obtain ⟨-, -, hfk, hlen, -, -⟩ := hnp rfl
  obtain ⟨_, xk', d, e, hk, hd, -, -, A1, key1⟩ := C34_minimal hS hs hsig h1
  cases e
  obtain ⟨_, xk2', d2, e, hk2, hd2, -, -, A2, key2⟩ := C34_minimal hS hs' hsig h2
  cases e
  obtain rfl := nc_eq hd hd2
  rw [← hk.unique hfk] at hlen
  obtain rfl := (knots_affine ha b hk).unique hk2
  have hc : ∀ g : K → Fin m → K, chi2 (x.map fun t => a * t + b) y (sigy.getD (y.map fun _ _ => 1)) g =
      chi2 x y (sigy.getD (y.map fun _ _ => 1)) (fun t => g (a * t + b)) := by
    intro g
    unfold chi2
    rw [List.length_map]
    exact sum_congr rfl fun t ht => by rw [getD_map_affine a b (mem_range.mp ht)]
  obtain ⟨C, u, v, w⟩ : Adm (xk'.map fun t => a * t + b) n d (scaleC a lo) (scaleC a hi) (fun t => p.call ((t - b) / a)) := adm_affine ha b hlen A1
  have L1 := (key2 C _ u v w).2.1
  have B2 : Adm (xk'.map fun t => a * t + b) n d (scaleC a lo) (scaleC a hi) q.call := A2
  have B3 := adm_affine (inv_pos.mpr ha) (-(b / a)) (by simpa using hlen) B2
  rw [scaleC_inv ha0, scaleC_inv ha0, List.map_map] at B3
  have em : (xk'.map ((fun t => a⁻¹ * t + -(b / a)) ∘ fun t => a * t + b)) = xk' := by
    conv_rhs => rw [← List.map_id xk']
    refine List.map_congr_left fun t _ => ?_
    simp only [Function.comp, id]
    field_simp; ring
  have ef : (fun t => q.call ((t - -(b / a)) / a⁻¹)) = fun t => q.call (a * t + b) := by
    funext t
    congr 1
    rw [sub_neg_eq_add, div_inv_eq_mul, add_mul, div_mul_cancel₀ _ ha0, mul_comm]
  rw [em, ef] at B3
  obtain ⟨C3, u3, v3, w3⟩ := B3
  obtain ⟨-, L2, L3⟩ := key1 C3 _ u3 v3 w3
  rw [hc, hc] at L1
  have ep : (fun t => p.call ((a * t + b - b) / a)) = p.call := by
    funext t
    congr 1
    field_simp; ring
  rw [ep] at L1
  exact ⟨L3 L1, by rw [hc]; exact le_antisymm L1 L2⟩

/-- **C122** — the same for `plfit` (end values are not derivatives, so they stay as they are). -/
theorem C122_plfit {inv : InvFun K} {H : SolveH K} (hinv : InvOK inv) (hS : ScipyOK S) (hH : SolveHOK H) (hs : xk.Pairwise (· < ·))
    (hsig : ∀ l, sigy = some l → ∀ v ∈ l, ∀ i, v i ≠ 0) {a b : K} (ha : 0 < a)
    (h1 : plfit inv S H xk x y sigy lo hi false e1 = .ok (.pw p))
    (h2 : plfit inv S H (xk.map fun t => a * t + b) (x.map fun t => a * t + b) y sigy lo hi false e2 = .ok (.pw q)) :
    (∀ t ∈ x, q.call (a * t + b) = p.call t) ∧
      chi2 (x.map fun t => a * t + b) y (sigy.getD (y.map fun _ _ => 1)) q.call = chi2 x y (sigy.getD (y.map fun _ _ => 1)) p.call := by
  have hs' : (xk.map fun t => a * t + b).Pairwise (· < ·) := by
    rw [List.pairwise_map]
    exact hs.imp fun h => by nlinarith
  have ha0 := ha.ne'
  obtain ⟨s, -, hset, hl1, hh1, -⟩ := plfit_ok h1
  obtain ⟨-, e1, e2, -⟩ := setup_ok hset hs
  rw [e1] at hl1
  rw [e2] at hh1
  have sc : ∀ (a : K) (l : List (Fin m → K)), l.length ≤ 1 → scaleC a l = l := by
    intro a l hl
    match l, hl with
    | [], _ => rfl
    | [v], _ => simp [scaleC]
  obtain ⟨xk', hk, hlen, -, A1, hy, hsg, key1⟩ := plfit_adm hinv hS hH hs hsig h1
  obtain ⟨xk2', hk2, -, -, A2, -, -, key2⟩ := plfit_adm hinv hS hH hs' hsig h2
  obtain rfl := (knots_affine ha b hk).unique hk2
  have hc : ∀ g : K → Fin m → K, chi2 (x.map fun t => a * t + b) y (sigy.getD (y.map fun _ _ => 1)) g =
      chi2 x y (sigy.getD (y.map fun _ _ => 1)) (fun t => g (a * t + b)) := by
    intro g
    unfold chi2
    rw [List.length_map]
    exact sum_congr rfl fun t ht => by rw [getD_map_affine a b (mem_range.mp ht)]
  have B1 := adm_affine ha b hlen A1
  rw [sc _ _ hl1, sc _ _ hh1] at B1
  have L1 := key2 _ B1
  have B3 := adm_affine (inv_pos.mpr ha) (-(b / a)) (by simpa using hlen) A2
  rw [sc _ _ hl1, sc _ _ hh1, List.map_map] at B3
  have em : (xk'.map ((fun t => a⁻¹ * t + -(b / a)) ∘ fun t => a * t + b)) = xk' := by
    conv_rhs => rw [← List.map_id xk']
    refine List.map_congr_left fun t _ => ?_
    simp only [Function.comp, id]
    field_simp; ring
  have ef : (fun t => q.call ((t - -(b / a)) / a⁻¹)) = fun t => q.call (a * t + b) := by
    funext t
    congr 1
    rw [sub_neg_eq_add, div_inv_eq_mul, add_mul, div_mul_cancel₀ _ ha0, mul_comm]
  rw [em, ef] at B3
  have L2 := key1 _ B3
  rw [hc, hc] at L1
  have ep : (fun t => p.call ((a * t + b - b) / a)) = p.call := by
    funext t
    congr 1
    field_simp; ring
  rw [ep] at L1
  have n1 : 0 ≤ ∑ t ∈ range (x.map fun t => a * t + b).length, ∑ i, ((p.call (((x.map fun t => a * t + b).getD t 0 - b) / a) i -
      q.call ((x.map fun t => a * t + b).getD t 0) i) / (sigy.getD (y.map fun _ _ => 1)).getD t 0 i) ^ 2 :=
    sum_nonneg fun t _ => sum_nonneg fun i _ => sq_nonneg _
  have n2 : 0 ≤ ∑ t ∈ range x.length, ∑ i, ((q.call (a * x.getD t 0 + b) i - p.call (x.getD t 0) i) /
      (sigy.getD (y.map fun _ _ => 1)).getD t 0 i) ^ 2 :=
    sum_nonneg fun t _ => sum_nonneg fun i _ => sq_nonneg _
  beta_reduce at L1 L2
  refine ⟨dist_zero (g := fun t => q.call (a * t + b)) hy hsg hsig ?_, ?_⟩
  · beta_reduce; linarith
  · rw [hc]; linarith

/-- Non-trivial case: the parabola with a given value and slope at 0, in units of 2 with origin 1. -/
example : let f := fun (xk x : List ℚ) (l : ℚ) => ((splfit (m := 1) (exactScipy ℚ) xk x [fun _ => 0, fun _ => 1, fun _ => 0, fun _ => 1, fun _ => 0]
      none 2 none [fun _ => 1, fun _ => l]).bind fun o => x.mapM fun t => (o.1.at t).map (· 0))
    f [0, 3] [0, 1/2, 1, 2, 3] 2 = .ok [1, 2809/1569, 3391/1569, 2581/1569, -287/523] ∧
    f [1, 7] [1, 2, 3, 5, 7] 1 = .ok [1, 2809/1569, 3391/1569, 2581/1569, -287/523] := by decide +kernel

end Npplus
