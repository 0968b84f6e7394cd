import Verif.Props.SplineIff
import Verif.Props.Splfit
import Mathlib.LinearAlgebra.Dual.Lemmas

/-!
# C118: the spline is the only one; it reproduces polynomials; change of units of x
-/

set_option linter.unusedSectionVars false

namespace Npplus

open Spec Finset PwPoly Spl

variable {K : Type} [Field K] [LinearOrder K] [IsStrictOrderedRing K] [FloorRing K] {V : Type} [AddCommGroup V] [Module K V]
  {inv : InvFun K} {S : Scipy K} {x : List K} {y : List V} {n : ℕ} {lo hi lo' hi' : List (Option V)}
  {extrap : Option (ℕ × ℕ)} {p : PwPoly K V}

namespace UniqAux

/-- The unknowns of the system, from the coefficients of the intervals. -/
def zOf (n : ℕ) (x : List K) (D : ℕ → List V) (i : ℕ) : V := width x (i / n) ^ (i % n + 1) • (D (i / n)).getD (i % n + 1) 0

theorem zOf_at {D : ℕ → List V} {j q : ℕ} (hq : q < n) : zOf n x D (j * n + q) = width x j ^ (q + 1) • (D j).getD (q + 1) 0 := by
  have h1 : (j * n + q) / n = j := by
    rw [Nat.mul_comm, Nat.mul_add_div (by omega), Nat.div_eq_of_lt hq, Nat.add_zero]
  have h2 : (j * n + q) % n = q := by
    rw [Nat.mul_comm, Nat.mul_add_mod, Nat.mod_eq_of_lt hq]
  unfold zOf; rw [h1, h2]

theorem inner_zOf (hs : x.Pairwise (· < ·)) {D : ℕ → List V} {j : ℕ} (hj : j + 1 < x.length) (hl : (D j).length = n + 1)
    (h0 : (D j).getD 0 0 = y.getD j 0) : inner n x y (zOf n x D) j = D j := by
  refine list_ext_getD 0 (by rw [inner_length, hl]) fun k _ => ?_
  cases k with
  | zero => rw [inner_getD_zero, h0]
  | succ q =>
    rcases Nat.lt_or_ge q n with hq | hq
    · rw [inner_getD_succ _ _ _ _ hq, zOf_at hq, smul_smul, one_div, inv_mul_cancel₀ (pow_ne_zero _ (width_ne hs hj)), one_smul]
    · rw [List.getD_eq_default _ _ (by rw [inner_length]; omega), List.getD_eq_default _ _ (by omega)]

/-- The coefficients of an interpolating spline solve the system. -/
theorem sys_of (hs : x.Pairwise (· < ·)) (hn : 1 ≤ n) {D : ℕ → List V} (hl : ∀ j, j + 1 < x.length → (D j).length = n + 1)
    (h0 : ∀ j, j + 1 < x.length → (D j).getD 0 0 = y.getD j 0) (h1 : ∀ j, j + 1 < x.length → rightCoeff x D j 0 = y.getD (j + 1) 0)
    (hsm : SmoothTo x (n - 1) D) : Sys n x y (zOf n x D) := by
  have ht : ∀ j m, j + 1 < x.length → width x j ^ m • rightCoeff x D j m =
      (if m = 0 then y.getD j 0 else 0) + ∑ q ∈ range n, ((q + 1).choose m : K) • zOf n x D (j * n + q) := by
    intro j m hj
    rw [← inner_taylor (n := n) x y (zOf n x D) j m (width_ne hs hj), inner_zOf hs hj (hl j hj) (h0 j hj)]
    rfl
  refine ⟨fun j hj => ?_, fun j hj m hm hmn => ?_⟩
  · have := ht j 0 (by omega)
    rw [pow_zero, one_smul, if_pos rfl, h1 j (by omega)] at this
    simp only [Nat.choose_zero_right, Nat.cast_one, one_smul] at this
    rw [this]; abel
  · have := ht j m (by omega)
    rw [if_neg (by omega), zero_add] at this
    rw [← this]
    have hj' := hsm j (by omega) m (by omega)
    unfold jump at hj'
    rw [← sub_eq_zero.mp hj', zOf_at (by omega), Nat.sub_add_cancel hm, smul_smul]
    congr 1
    have hw := width_ne hs (show j + 1 + 1 < x.length by omega)
    rw [div_pow]; field_simp

/-- Two solutions with the same data and end conditions agree. -/
theorem sys_unique (hn : 1 ≤ n) (hx : 2 ≤ x.length) (hs : x.Pairwise (· < ·)) {z z' : ℕ → V} (h : Sys n x y z) (h' : Sys n x y z')
    {L H : ℕ → Prop} [DecidablePred L] [DecidablePred H]
    (hL : ∀ q < n, L q → z q = z' q)
    (hH : ∀ q < n, H q → ∑ q' ∈ range n, ((q' + 1).choose (q + 1) : K) • z ((x.length - 2) * n + q') =
      ∑ q' ∈ range n, ((q' + 1).choose (q + 1) : K) • z' ((x.length - 2) * n + q'))
    (htot : n - 1 ≤ Nat.count L (n - 1) + Nat.count H (n - 1))
    (hP : ∀ d < n, d < x.length + Nat.count L d + Nat.count H d) : ∀ i < (x.length - 1) * n, z i = z' i := by
  intro i hi
  rw [← sub_eq_zero, ← Module.forall_dual_apply_eq_zero_iff K]
  intro φ
  have hsys : Sys n x ([] : List K) (fun i => φ (z i - z' i)) := by
    refine ⟨fun j hj => ?_, fun j hj m hm hmn => ?_⟩
    · rw [← map_sum, sum_sub_distrib, h.val j hj, h'.val j hj, sub_self, map_zero]; simp
    · have e1 := h.cont j hj m hm hmn
      have e2 := h'.cont j hj m hm hmn
      calc ∑ q ∈ range n, ((q + 1).choose m : K) • φ (z (j * n + q) - z' (j * n + q))
          = φ (∑ q ∈ range n, ((q + 1).choose m : K) • z (j * n + q) - ∑ q ∈ range n, ((q + 1).choose m : K) • z' (j * n + q)) := by
            rw [← sum_sub_distrib, map_sum]
            exact sum_congr rfl fun q _ => by rw [← smul_sub, map_smul]
        _ = _ := by rw [e1, e2, ← smul_sub, map_smul]
  refine hom_polya hn hx hs hsys (L := L) (H := H) (fun q hq hl => ?_) (fun q hq hh => ?_) htot hP i hi
  · unfold aC
    rw [if_neg (by omega), Nat.zero_mul, Nat.zero_add, Nat.add_sub_cancel]
    show φ (z q - z' q) = 0
    rw [hL q hq hl, sub_self, map_zero]
  · rw [bC_eq]
    calc ∑ q' ∈ range n, ((q' + 1).choose (q + 1) : K) • φ (z ((x.length - 2) * n + q') - z' ((x.length - 2) * n + q'))
        = φ (∑ q' ∈ range n, ((q' + 1).choose (q + 1) : K) • z ((x.length - 2) * n + q') -
            ∑ q' ∈ range n, ((q' + 1).choose (q + 1) : K) • z' ((x.length - 2) * n + q')) := by
          rw [← sum_sub_distrib, map_sum]
          exact sum_congr rfl fun q _ => by rw [← smul_sub, map_smul]
      _ = 0 := by rw [hH q hq hh, sub_self, map_zero]

/-- The end coefficients of a continuous piecewise polynomial function are its values at the knots. -/
theorem pw_values {D : ℕ → List V} {g : K → V} {c : ℕ} (hs : x.Pairwise (· < ·)) (hg : IsPwOn x n D g) (hsm : SmoothTo x c D) :
    ∀ j, j + 1 < x.length → (D j).getD 0 0 = g (x.getD j 0) ∧ rightCoeff x D j 0 = g (x.getD (j + 1) 0) := by
  have hlt : ∀ j, j + 1 < x.length → x.getD j 0 < x.getD (j + 1) 0 := fun j hj => sub_pos.mp (width_pos hs hj)
  have hr : ∀ j, j + 1 < x.length → rightCoeff x D j 0 = g (x.getD (j + 1) 0) := by
    intro j hj
    unfold rightCoeff
    rw [taylorCoeff_zero, (hg j hj).2 _ (.inl (hlt j hj)) le_rfl]
  intro j hj
  refine ⟨?_, hr j hj⟩
  cases j with
  | zero => rw [(hg 0 hj).2 _ (.inr ⟨rfl, rfl⟩) (hlt 0 hj).le, sub_self, polyVal_at_zero]
  | succ j =>
    have := hsm j (by omega) 0 (by omega)
    unfold jump at this
    rw [sub_eq_zero.mp this, hr j (by omega)]

end UniqAux

open UniqAux

/-- **C118** — there is no other spline: `lo'`, `hi'` being the completed boundary conditions (C26), every piecewise polynomial
function `g` of degree `n` on the knots `x` with `n-1` continuous derivatives, the values `y` at `x` and the prescribed
coefficients at the ends is the one `spline` returns: the same polynomial on every interval, so the same values. -/
theorem C118_unique (hinv : InvOK inv) (hS : ScipyOK S) (hs : x.Pairwise (· < ·))
    (h : spline inv S x y n lo hi false extrap = .ok (.pw p)) (C : Completed n lo hi lo' hi') {D : ℕ → List V} {g : K → V}
    (hg : IsPwOn x n D g) (hsm : SmoothTo x (n - 1) D) (hint : ∀ j < x.length, g (x.getD j 0) = y.getD j 0)
    (hl : ∀ q v, bcItem lo' q = some v → (D 0).getD (q + 1) 0 = v)
    (hh : ∀ q v, bcItem hi' q = some v → rightCoeff x D (x.length - 2) (q + 1) = v) :
    (∀ j, j + 1 < x.length → piece p (j + 1) = D j) ∧
      ∀ t, x.getD 0 0 ≤ t → t ≤ x.getD (x.length - 1) 0 → p.call t = g t := by
  obtain ⟨hx, hy, hn, hlo, hhi, hp⟩ := spline_nonper hs h
  have hwf := (C24_spline hinv hS hs h).1
  have hxk := (C24_spline hinv hS hs h).2.1
  have hdeg := (C24_spline hinv hS hs h).2.2.1
  obtain ⟨z, lo2, hi2, rfl, sys, C2, e1, e2⟩ := nonper_ok hinv hS hs hx hy hn hlo hhi hp
  have hc : bcCount lo + bcCount hi ≤ n - 1 := by
    by_contra hc
    rcases Nat.lt_or_ge n 2 with h2 | h2
    · have a1 : lo = [] := List.length_eq_zero_iff.mp (by omega)
      have a2 : hi = [] := List.length_eq_zero_iff.mp (by omega)
      rw [a1, a2] at hc; simp [bcCount] at hc
    · rw [C26_too_many (inv := inv) (S := S) (extrap := extrap) hx hy h2 (by omega)] at h
      cases h
  have hP := ((C24_returns_iff (inv := inv) (S := S) (y := y) (extrap := extrap) hS hs hx hy hn hlo hhi C hc).1).mp ⟨_, h⟩
  have hv := pw_values hs hg hsm
  have hD := sys_of (y := y) hs hn (fun j hj => (hg j hj).1) (fun j hj => by rw [(hv j hj).1, hint j (by omega)])
    (fun j hj => by rw [(hv j hj).2, hint _ hj]) hsm
  have hin : ∀ j, j + 1 < x.length → inner n x y (zOf n x D) j = D j := fun j hj =>
    inner_zOf hs hj (hg j hj).1 (by rw [(hv j hj).1, hint j (by omega)])
  have hz : ∀ i < (x.length - 1) * n, z i = zOf n x D i := by
    refine sys_unique hn hx hs sys hD (L := given lo') (H := given hi') (fun q hq hL => ?_) (fun q hq hH => ?_) ?_ hP
    · obtain ⟨v, hv⟩ := Option.isSome_iff_exists.mp hL
      rw [e1 q v (by rw [← (C26_unique C C2 q).1]; exact hv)]
      have := zOf_at (x := x) (D := D) (j := 0) hq
      rw [Nat.zero_mul, Nat.zero_add] at this
      rw [this, hl q v hv]
    · obtain ⟨v, hv⟩ := Option.isSome_iff_exists.mp hH
      rw [e2 q v (by rw [← (C26_unique C C2 q).2]; exact hv)]
      have := inner_taylor (n := n) x y (zOf n x D) (x.length - 2) (q + 1) (width_ne hs (by omega))
      rw [if_neg (by omega), zero_add] at this
      rw [← this, hin _ (by omega), ← hh q v hv]
      rfl
    · rw [count_given C.len_lo, count_given C.len_hi, C.total]
  have hpiece : ∀ j, j + 1 < x.length → piece (truncEnds (extrap.getD (n - 1, n - 1)) (assemble n x y z)) (j + 1) = D j := by
    intro j hj
    rw [truncEnds_inner hj, ← hin j hj]
    unfold inner
    congr 1
    refine List.map_congr_left fun q hq => ?_
    rw [hz _ (block_lt (List.mem_range.mp hq) (by omega))]
  refine ⟨hpiece, fun t t1 t2 => ?_⟩
  have hpw := Fit.isPwOn_call hwf (by rw [truncEnds_zero hx, truncEnds_inner (by omega), trunc_getD, if_pos (Nat.zero_le _)])
  rw [hxk] at hpw
  rw [Fit.isPwOn_at hpw hs hx t1 t2, Fit.isPwOn_at hg hs hx t1 t2]
  have := (Fit.index_spec hs hx t1 t2).1
  rw [← hpiece _ this]

/-- **C118** — polynomials are reproduced: when the data and the (completed) boundary conditions come from a polynomial of
degree at most `n`, the spline is that polynomial between the end knots, and everywhere with `extrap=(n, n)`. -/
theorem C118_poly (hinv : InvOK inv) (hS : ScipyOK S) (hs : x.Pairwise (· < ·))
    (h : spline inv S x y n lo hi false extrap = .ok (.pw p)) (C : Completed n lo hi lo' hi') {c : List V} (hc : c.length ≤ n + 1)
    (hint : ∀ j < x.length, y.getD j 0 = polyVal c (x.getD j 0))
    (hl : ∀ q v, bcItem lo' q = some v → v = taylorCoeff c (x.getD 0 0) (q + 1))
    (hh : ∀ q v, bcItem hi' q = some v → v = taylorCoeff c (x.getD (x.length - 1) 0) (q + 1)) :
    (∀ t, x.getD 0 0 ≤ t → t ≤ x.getD (x.length - 1) 0 → p.call t = polyVal c t) ∧
      (extrap = some (n, n) → ∀ t, p.call t = polyVal c t) := by
  obtain ⟨hx, hy, hn, hlo, hhi, hp⟩ := spline_nonper hs h
  have hR : ∀ j k, rightCoeff x (fun j => tcList c (x.getD j 0) n) j k = taylorCoeff c (x.getD (j + 1) 0) k := by
    intro j k
    unfold rightCoeff
    rw [taylorCoeff_tcList _ _ _ _ _ hc, add_sub_cancel]
  have hu := C118_unique (lo' := lo') (hi' := hi') (D := fun j => tcList c (x.getD j 0) n) (g := polyVal c) hinv hS hs h C
    (fun j hj => ⟨length_tcList .., fun t _ _ => by rw [polyVal_tcList _ _ _ _ hc, add_sub_cancel]⟩)
    (fun j hj k hk => by
      unfold jump
      rw [hR, tcList_getD _ _ _ _ (by omega), sub_self])
    (fun j hj => (hint j hj).symm)
    (fun q v hq => by
      have : q < n - 1 := by
        by_contra hc
        unfold bcItem at hq
        rw [List.getD_eq_default _ _ (by have := C.len_lo; omega)] at hq; cases hq
      rw [tcList_getD _ _ _ _ (by omega), hl q v hq])
    (fun q v hq => by
      rw [hR, show x.length - 2 + 1 = x.length - 1 by omega, hh q v hq])
  refine ⟨hu.2, fun he t => ?_⟩
  have hxk := (C24_spline hinv hS hs h).2.1
  obtain ⟨a1, a2, -⟩ := C28_extrapolation hinv hS hs h (.inl he)
  have hfac : ∀ k : ℕ, (Nat.factorial k : K) ≠ 0 := fun k => Nat.cast_ne_zero.mpr (Nat.factorial_ne_zero k)
  have hsum : ∀ x0 : K, ∑ k ∈ range (n + 1), (t - x0) ^ k • taylorCoeff c x0 k = polyVal c t := by
    intro x0
    have := polyVal_tcList c x0 (t - x0) n hc
    rw [add_sub_cancel] at this
    rw [← this]
    unfold polyVal
    rw [length_tcList]
    refine sum_congr rfl fun k hk => ?_
    rw [tcList_getD _ _ _ _ (by have := mem_range.mp hk; omega)]
  rcases le_total t (x.getD 0 0) with t1 | t1
  · rw [a1 t t1, ← hsum (x.getD 0 0)]
    refine sum_congr rfl fun k hk => ?_
    have := pieceDeriv_leftEnd p 0 k
    rw [hxk, hu.1 0 (by omega), tcList_getD _ _ _ _ (by have := mem_range.mp hk; omega)] at this
    rw [this, smul_smul, div_mul_cancel₀ _ (hfac k)]
  · rcases le_total t (x.getD (x.length - 1) 0) with t2 | t2
    · exact hu.2 t t1 t2
    · rw [a2 t t2, ← hsum (x.getD (x.length - 1) 0)]
      refine sum_congr rfl fun k hk => ?_
      have := pieceDeriv_rightEnd p (x.length - 2) k
      rw [show x.length - 2 + 1 = x.length - 1 by omega, hxk] at this
      rw [this, smul_smul, div_mul_cancel₀ _ (hfac k)]
      unfold rightCoeff
      beta_reduce
      rw [hu.1 (x.length - 2) (by omega), taylorCoeff_tcList _ _ _ _ _ hc, add_sub_cancel, show x.length - 2 + 1 = x.length - 1 by omega]

/-- Boundary values in other units: the coefficient of order `q+1` is divided by `a^(q+1)`. -/
def bcScale (a : K) (l : List (Option V)) : List (Option V) := l.mapIdx fun q o => o.map fun v => (1 / a ^ (q + 1)) • v

namespace UniqAux

theorem bcScale_item (a : K) (l : List (Option V)) (q : ℕ) : bcItem (bcScale a l) q = (bcItem l q).map fun v => (1 / a ^ (q + 1)) • v := by
  unfold bcItem bcScale
  rcases Nat.lt_or_ge q l.length with h | h
  · rw [List.getD_eq_getElem _ _ (by simpa using h), List.getD_eq_getElem _ _ h]; simp
  · rw [List.getD_eq_default _ _ (by simpa using h), List.getD_eq_default _ _ h]; rfl

theorem bcScale_isSome (a : K) (l : List (Option V)) (q : ℕ) : (bcItem (bcScale a l) q).isSome = (bcItem l q).isSome := by
  rw [bcScale_item]; simp

theorem bcScale_count (a : K) (l : List (Option V)) : bcCount (bcScale a l) = bcCount l := by
  rw [bcCount_sum _ l.length (by simp [bcScale]), bcCount_sum l l.length le_rfl]
  simp only [bcScale_isSome]

theorem bcScale_inv {a : K} (ha : a ≠ 0) {l : List (Option V)} {q : ℕ} {v : V} (h : bcItem (bcScale a l) q = some v) :
    bcItem l q = some (a ^ (q + 1) • v) := by
  rw [bcScale_item] at h
  obtain ⟨w, hw, rfl⟩ := Option.map_eq_some_iff.mp h
  rw [hw, smul_smul, mul_one_div_cancel (pow_ne_zero _ ha), one_smul]

theorem bcScale_completed {a : K} (ha : a ≠ 0) (C : Completed n lo hi lo' hi') :
    Completed n (bcScale a lo) (bcScale a hi) (bcScale a lo') (bcScale a hi') := by
  have hnone : ∀ {l : List (Option V)} {q}, bcItem (bcScale a l) q = none → bcItem l q = none := by
    intro l q h; rw [bcScale_item] at h; simpa using h
  refine ⟨by rw [bcScale_count, bcScale_count, C.total], by simpa [bcScale] using C.len_lo, by simpa [bcScale] using C.len_hi,
    fun q v hq => ?_, fun q v hq => ?_, fun q v h1 h2 => ?_, fun q v h1 h2 => ?_⟩
  · rw [bcScale_item, C.keep_lo q _ (bcScale_inv ha hq), Option.map_some, smul_smul, one_div_mul_cancel (pow_ne_zero _ ha), one_smul]
  · rw [bcScale_item, C.keep_hi q _ (bcScale_inv ha hq), Option.map_some, smul_smul, one_div_mul_cancel (pow_ne_zero _ ha), one_smul]
  · obtain ⟨e, f⟩ := C.new_lo q _ (hnone h1) (bcScale_inv ha h2)
    refine ⟨(smul_eq_zero.mp e).resolve_left (pow_ne_zero _ ha), fun q' a1 a2 => ?_⟩
    rw [bcScale_isSome, bcScale_isSome]; exact f q' a1 a2
  · obtain ⟨e, f, g⟩ := C.new_hi q _ (hnone h1) (bcScale_inv ha h2)
    refine ⟨(smul_eq_zero.mp e).resolve_left (pow_ne_zero _ ha), by rw [bcScale_isSome]; exact f, fun q' a1 a2 => ?_⟩
    rw [bcScale_isSome, bcScale_isSome]; exact g q' a1 a2

theorem getD_map_affine (a b : K) {j : ℕ} (hj : j < x.length) : (x.map fun t => a * t + b).getD j 0 = a * x.getD j 0 + b := by
  rw [List.getD_eq_getElem _ _ (by simpa using hj), List.getD_eq_getElem _ _ hj]; simp

/-- The coefficients of an interval in other units. -/
def scaleC (a : K) (l : List V) : List V := l.mapIdx fun k v => (1 / a ^ k) • v

theorem scaleC_getD (a : K) (l : List V) (k : ℕ) : (scaleC a l).getD k 0 = (1 / a ^ k) • l.getD k 0 := by
  unfold scaleC
  rcases Nat.lt_or_ge k l.length with h | h
  · rw [List.getD_eq_getElem _ _ (by simpa using h), List.getD_eq_getElem _ _ h]; simp
  · rw [List.getD_eq_default _ _ (by simpa using h), List.getD_eq_default _ _ h, smul_zero]

theorem scaleC_length (a : K) (l : List V) : (scaleC a l).length = l.length := by simp [scaleC]

theorem scaleC_taylor {a : K} (ha : a ≠ 0) (l : List V) (t : K) (k : ℕ) :
    taylorCoeff (scaleC a l) (a * t) k = (1 / a ^ k) • taylorCoeff l t k := by
  unfold taylorCoeff
  rw [scaleC_length, smul_sum]
  refine sum_congr rfl fun i _ => ?_
  rw [scaleC_getD, smul_smul, smul_smul]
  rcases Nat.lt_or_ge i k with h | h
  · rw [Nat.choose_eq_zero_of_lt h]; simp
  · congr 1
    obtain ⟨d, rfl⟩ : ∃ d, i = k + d := ⟨i - k, by omega⟩
    rw [Nat.add_sub_cancel_left, mul_pow, pow_add]
    field_simp

end UniqAux

/-- **C118** — units: measuring `x` from another origin in other units (`x -> a*x+b`, `a > 0`) and rescaling the
boundary values accordingly changes neither whether `spline` returns nor the function: its value at `a*t+b` is the
old value at `t`, for every `t`. -/
theorem C118_units (hinv : InvOK inv) (hS : ScipyOK S) (hs : x.Pairwise (· < ·)) {a b : K} (ha : 0 < a)
    (h : spline inv S x y n lo hi false extrap = .ok (.pw p)) :
    ∃ q, spline inv S (x.map fun t => a * t + b) y n (bcScale a lo) (bcScale a hi) false extrap = .ok (.pw q) ∧
      ∀ t, q.call (a * t + b) = p.call t := by
  have ha0 := ha.ne'
  obtain ⟨hx, hy, hn, hlo, hhi, hp⟩ := spline_nonper hs h
  have hs' : (x.map fun t => a * t + b).Pairwise (· < ·) := by
    rw [List.pairwise_map]
    exact hs.imp fun h => by nlinarith
  obtain ⟨lo', hi', C, hb1, hb2⟩ := C25_boundary hinv hS hs h
  have hc : bcCount lo + bcCount hi ≤ n - 1 := by
    by_contra hc
    rcases Nat.lt_or_ge n 2 with h2 | h2
    · have a1 : lo = [] := List.length_eq_zero_iff.mp (by omega)
      have a2 : hi = [] := List.length_eq_zero_iff.mp (by omega)
      rw [a1, a2] at hc; simp [bcCount] at hc
    · rw [C26_too_many (inv := inv) (S := S) (extrap := extrap) hx hy h2 (by omega)] at h
      cases h
  have hP := ((C24_returns_iff (inv := inv) (S := S) (y := y) (extrap := extrap) hS hs hx hy hn hlo hhi C hc).1).mp ⟨_, h⟩
  obtain ⟨q, hq⟩ := ((C24_returns_iff (inv := inv) (S := S) (y := y) (extrap := extrap) hS hs' (by simpa using hx) (by simpa using hy) hn
    (by simpa [bcScale] using hlo) (by simpa [bcScale] using hhi) (bcScale_completed ha0 C) (by rw [bcScale_count, bcScale_count]; exact hc)).1).mpr (by
      simp only [bcScale_isSome, List.length_map]; exact hP)
  refine ⟨q, hq, ?_⟩
  obtain ⟨hwf, hxk, hdeg, hval, hcont, hmatch⟩ := C24_spline hinv hS hs h
  have hfac : ∀ k : ℕ, (Nat.factorial k : K) ≠ 0 := fun k => Nat.cast_ne_zero.mpr (Nat.factorial_ne_zero k)
  have hpw : IsPwOn x n (fun j => piece p (j + 1)) p.call := by
    have h0 := hcont 0 (by rw [hxk]; omega)
    unfold MatchAt at h0
    have e1 := Spl.pieceDeriv_origin p 0 0
    rw [origin, Nat.zero_sub] at e1
    rw [e1, pieceDeriv_leftEnd] at h0
    have := Fit.isPwOn_call hwf (by simpa using h0)
    rw [hxk, show p.n - 1 = n from hdeg] at this
    exact this
  have hsm : SmoothTo x (n - 1) (fun j => piece p (j + 1)) := by
    intro j hj k hk
    have := hmatch (j + 1) (by omega) (by omega) k hk
    unfold MatchAt at this
    rw [pieceDeriv_rightEnd, pieceDeriv_leftEnd, hxk] at this
    unfold jump
    rw [sub_eq_zero]
    exact (smul_right_injective V (hfac k) this).symm
  have hw : ∀ j, j + 1 < x.length → (x.map fun t => a * t + b).getD (j + 1) 0 - (x.map fun t => a * t + b).getD j 0 =
      a * (x.getD (j + 1) 0 - x.getD j 0) := by
    intro j hj
    rw [getD_map_affine _ _ hj, getD_map_affine _ _ (by omega)]; ring
  have hR : ∀ j k, j + 1 < x.length → rightCoeff (x.map fun t => a * t + b) (fun j => scaleC a (piece p (j + 1))) j k =
      (1 / a ^ k) • rightCoeff x (fun j => piece p (j + 1)) j k := by
    intro j k hj
    unfold rightCoeff
    rw [hw j hj, scaleC_taylor ha0]
  have hdiv : ∀ s : K, a * ((s - b) / a) + b = s := by intro s; field_simp; ring
  obtain ⟨u1, u2⟩ := C118_unique (D := fun j => scaleC a (piece p (j + 1))) (g := fun s => p.call ((s - b) / a)) hinv hS hs' hq
    (bcScale_completed ha0 C)
    (by
      intro j hj
      rw [List.length_map] at hj
      refine ⟨by rw [scaleC_length, (hpw j hj).1], fun t t1 t2 => ?_⟩
      rw [getD_map_affine _ _ (by omega)] at t1
      rw [getD_map_affine _ _ hj] at t2
      rw [getD_map_affine _ _ (by omega)] at t1
      have := (hpw j hj).2 ((t - b) / a) (by
        rcases t1 with t1 | ⟨rfl, t1⟩
        · left; rw [lt_div_iff₀ ha]; linarith
        · right; refine ⟨rfl, ?_⟩; rw [eq_div_iff ha0]; linarith) (by rw [div_le_iff₀ ha]; linarith)
      show p.call ((t - b) / a) = _
      rw [this, getD_map_affine _ _ (by omega), ← taylorCoeff_zero, ← taylorCoeff_zero]
      have e := scaleC_taylor ha0 (piece p (j + 1)) ((t - b) / a - x.getD j 0) 0
      rw [pow_zero, div_one, one_smul] at e
      rw [← e]
      congr 1
      field_simp; ring)
    (by
      intro j hj k hk
      rw [List.length_map] at hj
      have := hsm j hj k hk
      unfold jump at this ⊢
      rw [hR j k (by omega), scaleC_getD, ← smul_sub, this, smul_zero])
    (by
      intro j hj
      rw [List.length_map] at hj
      show p.call _ = _
      rw [getD_map_affine _ _ hj, ← hval j hj, List.getD_eq_getElem _ _ hj]
      congr 1
      field_simp; ring)
    (fun r v hr => by
      have := hb1 r _ (bcScale_inv ha0 hr)
      have e := pieceDeriv_leftEnd p 0 (r + 1)
      rw [hxk] at e
      rw [e] at this
      rw [scaleC_getD, smul_right_injective V (hfac _) this, smul_smul, one_div_mul_cancel (pow_ne_zero _ ha0), one_smul])
    (fun r v hr => by
      have := hb2 r _ (bcScale_inv ha0 hr)
      have e := pieceDeriv_rightEnd p (x.length - 2) (r + 1)
      rw [hxk, show x.length - 2 + 1 = x.length - 1 by omega] at e
      rw [e] at this
      rw [List.length_map, hR _ _ (by omega), smul_right_injective V (hfac _) this, smul_smul, one_div_mul_cancel (pow_ne_zero _ ha0), one_smul])
  rw [List.length_map] at u1 u2
  rw [getD_map_affine _ _ (by omega), getD_map_affine _ _ (by omega)] at u2
  obtain ⟨hqwf, hqxk, -⟩ := C24_spline hinv hS hs' hq
  intro t
  have key : ∀ e : ℕ × ℕ, (extrap = some e ∨ (extrap = none ∧ e.1 = n - 1 ∧ e.2 = n - 1)) → q.call (a * t + b) = p.call t := by
    rintro ⟨ea, eb⟩ he
    obtain ⟨p1, p2, -⟩ := C28_extrapolation hinv hS hs h (a := ea) (b := eb) he
    obtain ⟨q1, q2, -⟩ := C28_extrapolation hinv hS hs' hq (a := ea) (b := eb) he
    rw [List.length_map, getD_map_affine _ _ (by omega)] at q2
    rw [getD_map_affine _ _ (by omega)] at q1
    rcases le_total t (x.getD 0 0) with t1 | t1
    · rw [p1 t t1, q1 (a * t + b) (by nlinarith)]
      refine sum_congr rfl fun k _ => ?_
      have e1 := pieceDeriv_leftEnd p 0 k
      have e2 := pieceDeriv_leftEnd q 0 k
      rw [hxk] at e1
      rw [hqxk, getD_map_affine _ _ (by omega), u1 0 (by omega), scaleC_getD] at e2
      rw [e1, e2, smul_smul, smul_smul, smul_smul]
      congr 1
      rw [show a * t + b - (a * x.getD 0 0 + b) = a * (t - x.getD 0 0) by ring, mul_pow]
      field_simp
    · rcases le_total t (x.getD (x.length - 1) 0) with t2 | t2
      · rw [u2 (a * t + b) (by nlinarith) (by nlinarith)]
        congr 1
        field_simp; ring
      · rw [p2 t t2, q2 (a * t + b) (by nlinarith)]
        refine sum_congr rfl fun k _ => ?_
        have e1 := pieceDeriv_rightEnd p (x.length - 2) k
        have e2 := pieceDeriv_rightEnd q (x.length - 2) k
        rw [hxk, show x.length - 2 + 1 = x.length - 1 by omega] at e1
        rw [hqxk, show x.length - 2 + 1 = x.length - 1 by omega, getD_map_affine _ _ (by omega)] at e2
        have e3 := hR (x.length - 2) k (by omega)
        have e4 : rightCoeff (x.map fun t => a * t + b) (fun j => piece q (j + 1)) (x.length - 2) k =
            rightCoeff (x.map fun t => a * t + b) (fun j => scaleC a (piece p (j + 1))) (x.length - 2) k := by
          unfold rightCoeff
          beta_reduce
          rw [u1 (x.length - 2) (by omega)]
        rw [e1, e2, e4, e3, smul_smul, smul_smul, smul_smul]
        congr 1
        rw [show a * t + b - (a * x.getD (x.length - 1) 0 + b) = a * (t - x.getD (x.length - 1) 0) by ring, mul_pow]
        field_simp
  cases extrap with
  | none => exact key (n - 1, n - 1) (.inr ⟨rfl, rfl, rfl⟩)
  | some e => exact key e (.inl rfl)

namespace UniqAux

theorem getD_reverse (l : List K) {j : ℕ} (hj : j < l.length) : l.reverse.getD j 0 = l.getD (l.length - 1 - j) 0 := by
  rw [List.getD_eq_getElem _ _ (by simpa using hj), List.getElem_reverse, List.getD_eq_getElem _ _ (by omega)]

/-- The result of `spline` as a piecewise polynomial function, on closed intervals. -/
theorem spline_pw (hinv : InvOK inv) (hS : ScipyOK S) (hs : x.Pairwise (· < ·))
    (h : spline inv S x y n lo hi false extrap = .ok (.pw p)) :
    IsPwOn x n (fun j => piece p (j + 1)) p.call ∧ SmoothTo x (n - 1) (fun j => piece p (j + 1)) ∧
      ∀ j, j + 1 < x.length → ∀ t, x.getD j 0 ≤ t → t ≤ x.getD (j + 1) 0 → p.call t = polyVal (piece p (j + 1)) (t - x.getD j 0) := by
  obtain ⟨hwf, hxk, hdeg, hval, hcont, hmatch⟩ := C24_spline hinv hS hs h
  have hx := (spline_nonper hs h).1
  have hfac : ∀ k : ℕ, (Nat.factorial k : K) ≠ 0 := fun k => Nat.cast_ne_zero.mpr (Nat.factorial_ne_zero k)
  have hpw : IsPwOn x n (fun j => piece p (j + 1)) p.call := by
    have h0 := hcont 0 (by rw [hxk]; omega)
    unfold MatchAt at h0
    have e1 := Spl.pieceDeriv_origin p 0 0
    rw [origin, Nat.zero_sub] at e1
    rw [e1, pieceDeriv_leftEnd] at h0
    have := Fit.isPwOn_call hwf (by simpa using h0)
    rw [hxk, show p.n - 1 = n from hdeg] at this
    exact this
  have hsm : SmoothTo x (n - 1) (fun j => piece p (j + 1)) := by
    intro j hj k hk
    have := hmatch (j + 1) (by omega) (by omega) k hk
    unfold MatchAt at this
    rw [pieceDeriv_rightEnd, pieceDeriv_leftEnd, hxk] at this
    unfold jump
    rw [sub_eq_zero]
    exact (smul_right_injective V (hfac k) this).symm
  refine ⟨hpw, hsm, fun j hj t t1 t2 => ?_⟩
  rcases t1.lt_or_eq with t1 | rfl
  · exact (hpw j hj).2 t (.inl t1) t2
  · rw [sub_self, polyVal_at_zero]
    exact (pw_values hs hpw hsm j hj).1.symm

end UniqAux

/-- **C118** — mirror images: with `a < 0` the new abscissas are decreasing, and again `spline` gives the same function of the
original variable, provided the boundary conditions completed by `spline` are the same from both sides (always so when all
`n-1` of them are given, C118_mirror_given; for even `n` the default conditions are not, C119). -/
theorem C118_mirror (hinv : InvOK inv) (hS : ScipyOK S) (hs : x.Pairwise (· < ·)) {a b : K} (ha : a < 0)
    (C : Completed n lo hi lo' hi') (C' : Completed n hi lo hi' lo')
    (h : spline inv S x y n lo hi false extrap = .ok (.pw p)) :
    ∃ q, spline inv S (x.map fun t => a * t + b) y n (bcScale a lo) (bcScale a hi) false extrap = .ok (.pw q) ∧
      ∀ t, q.call (a * t + b) = p.call t := by
  have ha0 := ha.ne
  obtain ⟨hx, hy, hn, hlo, hhi, hp⟩ := spline_nonper hs h
  have hdec : (x.map fun t => a * t + b).Pairwise (· > ·) := by
    rw [List.pairwise_map]
    exact hs.imp fun h => by nlinarith
  rw [C29_decreasing hdec]
  set X := (x.map fun t => a * t + b).reverse with hX
  have hs' : X.Pairwise (· < ·) := List.pairwise_reverse.mpr hdec
  have hXl : X.length = x.length := by simp [hX]
  have hXg : ∀ j < x.length, X.getD j 0 = a * x.getD (x.length - 1 - j) 0 + b := by
    intro j hj
    rw [hX, getD_reverse _ (by simpa using hj), List.length_map, getD_map_affine _ _ (by omega)]
  obtain ⟨lo2, hi2, C2, hb1, hb2⟩ := C25_boundary hinv hS hs h
  have hc : bcCount lo + bcCount hi ≤ n - 1 := by
    by_contra hc
    rcases Nat.lt_or_ge n 2 with h2 | h2
    · have a1 : lo = [] := List.length_eq_zero_iff.mp (by omega)
      have a2 : hi = [] := List.length_eq_zero_iff.mp (by omega)
      rw [a1, a2] at hc; simp [bcCount] at hc
    · rw [C26_too_many (inv := inv) (S := S) (extrap := extrap) hx hy h2 (by omega)] at h
      cases h
  have hP := ((C24_returns_iff (inv := inv) (S := S) (y := y) (extrap := extrap) hS hs hx hy hn hlo hhi C hc).1).mp ⟨_, h⟩
  obtain ⟨q, hq⟩ := ((C24_returns_iff (inv := inv) (S := S) (y := y.reverse) (extrap := extrap.map Prod.swap) hS hs' (by omega)
    (by simpa [hXl] using hy) hn
    (by simpa [bcScale] using hhi) (by simpa [bcScale] using hlo) (bcScale_completed ha0 C') (by rw [bcScale_count, bcScale_count]; omega)).1).mpr (by
      simp only [bcScale_isSome, hXl]
      intro d hd
      have := hP d hd
      omega)
  refine ⟨q, hq, ?_⟩
  obtain ⟨hwf, hxk, hdeg, hval, hcont, hmatch⟩ := C24_spline hinv hS hs h
  obtain ⟨hpw, hsm, hclosed⟩ := spline_pw hinv hS hs h
  have hfac : ∀ k : ℕ, (Nat.factorial k : K) ≠ 0 := fun k => Nat.cast_ne_zero.mpr (Nat.factorial_ne_zero k)
  have hpl : ∀ j, j + 1 < x.length → (piece p (j + 1)).length ≤ n + 1 := fun j hj => (hpw j hj).1.le
  -- the coefficients of the reflected intervals
  set D : ℕ → List V := fun j => scaleC a (tcList (piece p (x.length - 1 - j)) (width x (x.length - 2 - j)) n) with hD
  have hRx : ∀ i k, i + 1 < x.length → rightCoeff x (fun j => piece p (j + 1)) i k = taylorCoeff (piece p (i + 1)) (width x i) k := fun _ _ _ => rfl
  have hDg : ∀ j k, j + 1 < x.length → k ≤ n → (D j).getD k 0 = (1 / a ^ k) • rightCoeff x (fun j => piece p (j + 1)) (x.length - 2 - j) k := by
    intro j k hj hk
    rw [hD]
    simp only
    rw [scaleC_getD, tcList_getD _ _ _ _ hk, hRx _ _ (by omega), show x.length - 2 - j + 1 = x.length - 1 - j by omega]
  have hw : ∀ j, j + 1 < x.length → X.getD (j + 1) 0 - X.getD j 0 = a * (-width x (x.length - 2 - j)) := by
    intro j hj
    rw [hXg _ hj, hXg _ (by omega), show x.length - 1 - (j + 1) = x.length - 2 - j by omega]
    unfold width
    rw [show x.length - 2 - j + 1 = x.length - 1 - j by omega]
    ring
  have hDr : ∀ j k, j + 1 < x.length → rightCoeff X D j k = (1 / a ^ k) • (piece p (x.length - 1 - j)).getD k 0 := by
    intro j k hj
    unfold rightCoeff
    rw [hw j hj, hD]
    simp only
    rw [scaleC_taylor ha0, taylorCoeff_tcList _ _ _ _ _ (by have := hpl (x.length - 2 - j) (by omega); rwa [show x.length - 2 - j + 1 = x.length - 1 - j by omega] at this),
      add_neg_cancel, taylorCoeff_at_zero]
  obtain ⟨u1, u2⟩ := C118_unique (D := D) (g := fun s => p.call ((s - b) / a)) hinv hS hs' hq (bcScale_completed ha0 C')
    (by
      intro j hj
      rw [hXl] at hj
      refine ⟨by rw [hD]; simp only; rw [scaleC_length, length_tcList], fun t t1 t2 => ?_⟩
      rw [hXg _ (by omega), hXg _ (by omega)] at t1
      rw [hXg _ hj, show x.length - 1 - (j + 1) = x.length - 2 - j by omega] at t2
      have t1' : a * x.getD (x.length - 1 - j) 0 + b ≤ t := by
        rcases t1 with t1 | ⟨rfl, t1⟩
        · exact t1.le
        · exact t1.le
      have := hclosed (x.length - 2 - j) (by omega) ((t - b) / a) (by rw [le_div_iff_of_neg ha]; linarith) (by
        rw [show x.length - 2 - j + 1 = x.length - 1 - j by omega, div_le_iff_of_neg ha]; linarith)
      show p.call ((t - b) / a) = _
      rw [this, hXg _ (by omega), ← taylorCoeff_zero, ← taylorCoeff_zero]
      have e := scaleC_taylor ha0 (tcList (piece p (x.length - 1 - j)) (width x (x.length - 2 - j)) n) ((t - b) / a - x.getD (x.length - 1 - j) 0) 0
      rw [pow_zero, div_one, one_smul, taylorCoeff_tcList _ _ _ _ _ (by
        have := hpl (x.length - 2 - j) (by omega); rwa [show x.length - 2 - j + 1 = x.length - 1 - j by omega] at this)] at e
      rw [show x.length - 2 - j + 1 = x.length - 1 - j by omega]
      have e1 : a * ((t - b) / a - x.getD (x.length - 1 - j) 0) = t - (a * x.getD (x.length - 1 - j) 0 + b) := by field_simp; ring
      have e2 : width x (x.length - 2 - j) + ((t - b) / a - x.getD (x.length - 1 - j) 0) = (t - b) / a - x.getD (x.length - 2 - j) 0 := by
        unfold width
        rw [show x.length - 2 - j + 1 = x.length - 1 - j by omega]; ring
      rw [e1, e2] at e
      rw [hD, ← e])
    (by
      intro j hj k hk
      rw [hXl] at hj
      have := hsm (x.length - 3 - j) (by omega) k hk
      unfold jump at this ⊢
      beta_reduce at this
      rw [hDr j k (by omega), hDg (j + 1) k (by omega) (by omega), ← smul_sub]
      rw [show x.length - 3 - j + 1 + 1 = x.length - 1 - j by omega] at this
      rw [show x.length - 2 - (j + 1) = x.length - 3 - j by omega, ← neg_sub, this, neg_zero, smul_zero])
    (by
      intro j hj
      rw [hXl] at hj
      show p.call _ = _
      have h1 := hval (x.length - 1 - j) (by omega)
      rw [hXg j hj]
      have h2 : y.reverse.getD j 0 = y.getD (x.length - 1 - j) 0 := by
        rw [List.getD_eq_getElem _ _ (by simp; omega), List.getElem_reverse, List.getD_eq_getElem _ _ (by omega)]
        congr 1; omega
      rw [h2, ← h1, List.getD_eq_getElem _ _ (by omega)]
      congr 1
      field_simp; ring)
    (fun r v hr => by
      have hr' := bcScale_inv ha0 hr
      have hrn : r + 1 ≤ n := by
        by_contra hc
        unfold bcItem at hr'
        rw [List.getD_eq_default _ _ (by have := C.len_hi; omega)] at hr'; cases hr'
      have := hb2 r _ (by rw [(C26_unique C2 C r).2]; exact hr')
      have e := pieceDeriv_rightEnd p (x.length - 2) (r + 1)
      rw [hxk, show x.length - 2 + 1 = x.length - 1 by omega] at e
      rw [e] at this
      rw [hDg 0 _ (by omega) hrn, Nat.sub_zero, smul_right_injective V (hfac _) this, smul_smul, one_div_mul_cancel (pow_ne_zero _ ha0), one_smul])
    (fun r v hr => by
      have hr' := bcScale_inv ha0 hr
      have := hb1 r _ (by rw [(C26_unique C2 C r).1]; exact hr')
      have e := pieceDeriv_leftEnd p 0 (r + 1)
      rw [hxk] at e
      rw [e] at this
      rw [hXl, hDr _ _ (by omega), show x.length - 1 - (x.length - 2) = 0 + 1 by omega, smul_right_injective V (hfac _) this, smul_smul,
        one_div_mul_cancel (pow_ne_zero _ ha0), one_smul])
  rw [hXl] at u1 u2
  rw [hXg 0 (by omega), hXg _ (by omega), Nat.sub_zero, Nat.sub_self] at u2
  obtain ⟨hqwf, hqxk, -⟩ := C24_spline hinv hS hs' hq
  intro t
  have key : ∀ e : ℕ × ℕ, (extrap = some e ∨ (extrap = none ∧ e.1 = n - 1 ∧ e.2 = n - 1)) → q.call (a * t + b) = p.call t := by
    rintro ⟨ea, eb⟩ he
    obtain ⟨p1, p2, -, -, p5, p6⟩ := C28_extrapolation hinv hS hs h (a := ea) (b := eb) he
    obtain ⟨q1, q2, -⟩ := C28_extrapolation hinv hS hs' hq (a := eb) (b := ea) (by
      rcases he with he | ⟨he, h1, h2⟩
      · left; rw [he]; rfl
      · right; rw [he]; exact ⟨rfl, h2, h1⟩)
    rw [hXl, hXg _ (by omega), Nat.sub_self] at q2
    rw [hXg 0 (by omega), Nat.sub_zero] at q1
    rcases le_total t (x.getD 0 0) with t1 | t1
    · rw [p1 t t1, q2 (a * t + b) (by nlinarith)]
      refine sum_congr rfl fun k _ => ?_
      have e1 := pieceDeriv_leftEnd p 0 k
      have e2 := pieceDeriv_rightEnd q (x.length - 2) k
      rw [hxk] at e1
      rw [hqxk, show x.length - 2 + 1 = x.length - 1 by omega, hXg _ (by omega), Nat.sub_self] at e2
      have e4 : rightCoeff X (fun j => piece q (j + 1)) (x.length - 2) k = rightCoeff X D (x.length - 2) k := by
        unfold rightCoeff
        beta_reduce
        rw [u1 (x.length - 2) (by omega)]
      rw [e1, e2, e4, hDr _ _ (by omega), show x.length - 1 - (x.length - 2) = 0 + 1 by omega, smul_smul, smul_smul, smul_smul]
      congr 1
      rw [show a * t + b - (a * x.getD 0 0 + b) = a * (t - x.getD 0 0) by ring, mul_pow]
      field_simp
    · rcases le_total t (x.getD (x.length - 1) 0) with t2 | t2
      · rw [u2 (a * t + b) (by nlinarith) (by nlinarith)]
        congr 1
        field_simp; ring
      · rw [p2 t t2, q1 (a * t + b) (by nlinarith)]
        refine sum_congr rfl fun k _ => ?_
        have e1 := pieceDeriv_rightEnd p (x.length - 2) k
        have e2 := pieceDeriv_leftEnd q 0 k
        rw [hxk, show x.length - 2 + 1 = x.length - 1 by omega] at e1
        rw [hqxk, hXg 0 (by omega), Nat.sub_zero, u1 0 (by omega)] at e2
        rw [e1, e2]
        rcases Nat.lt_or_ge n k with hk | hk
        · have z1 : (D 0).getD k 0 = 0 := List.getD_eq_default _ _ (by rw [hD]; simp only; rw [scaleC_length, length_tcList]; omega)
          have z2 : rightCoeff x (fun j => piece p (j + 1)) (x.length - 2) k = 0 := by
            rw [hRx _ _ (by omega)]
            exact taylorCoeff_eq_zero _ _ _ ((hpl _ (by omega)).trans (by omega))
          rw [z1, z2, smul_zero, smul_zero, smul_zero]
        · rw [hDg 0 k (by omega) hk, Nat.sub_zero, smul_smul, smul_smul, smul_smul]
          congr 1
          rw [show a * t + b - (a * x.getD (x.length - 1) 0 + b) = a * (t - x.getD (x.length - 1) 0) by ring, mul_pow]
          field_simp
  cases extrap with
  | none => exact key (n - 1, n - 1) (.inr ⟨rfl, rfl, rfl⟩)
  | some e => exact key e (.inl rfl)

/-- **C118** — mirror images, all `n-1` boundary conditions given. -/
theorem C118_mirror_given (hinv : InvOK inv) (hS : ScipyOK S) (hs : x.Pairwise (· < ·)) {a b : K} (ha : a < 0)
    (hfull : bcCount lo + bcCount hi = n - 1) (h : spline inv S x y n lo hi false extrap = .ok (.pw p)) :
    ∃ q, spline inv S (x.map fun t => a * t + b) y n (bcScale a lo) (bcScale a hi) false extrap = .ok (.pw q) ∧
      ∀ t, q.call (a * t + b) = p.call t := by
  obtain ⟨-, -, -, hlo, hhi, -⟩ := spline_nonper hs h
  refine C118_mirror (lo' := lo) (hi' := hi) hinv hS hs ha ?_ ?_ h
  · exact ⟨hfull, hlo, hhi, fun _ _ h => h, fun _ _ h => h, fun q v h1 h2 => (by rw [h1] at h2; cases h2), fun q v h1 h2 => (by rw [h1] at h2; cases h2)⟩
  · exact ⟨by omega, hhi, hlo, fun _ _ h => h, fun _ _ h => h, fun q v h1 h2 => (by rw [h1] at h2; cases h2), fun q v h1 h2 => (by rw [h1] at h2; cases h2)⟩

/-- **C118** — mirror images, default boundary conditions and odd degree. -/
theorem C118_mirror_default (hinv : InvOK inv) (hS : ScipyOK S) (hs : x.Pairwise (· < ·)) {a b : K} (ha : a < 0) (hn : Odd n)
    (h : spline inv S x y n [] [] false extrap = .ok (.pw p)) :
    ∃ q, spline inv S (x.map fun t => a * t + b) y n [] [] false extrap = .ok (.pw q) ∧
      ∀ t, q.call (a * t + b) = p.call t := by
  have C := default_completed (V := V) n
  have e : (n - 1) / 2 = n / 2 := by obtain ⟨m, rfl⟩ := hn; omega
  have C' := C
  rw [e] at C C'
  exact C118_mirror hinv hS hs ha C C' h

/-! ### non-trivial instances -/

/-- The cubic `t^3` with its slopes at the ends: reproduced exactly. -/
example {S : Scipy ℚ} (hS : ScipyOK S) : ∃ p, spline (V := ℚ) (adjInv ℚ) S [0, 1, 3] [0, 1, 27] 3 [some 0] [some 27] false (some (3, 3)) = .ok (.pw p) ∧
    ∀ t, p.call t = t ^ 3 := by
  have C : Completed 3 [some (0 : ℚ)] [some 27] [some 0] [some 27] :=
    ⟨by decide, by decide, by decide, fun _ _ h => h, fun _ _ h => h, fun q v h1 h2 => (by rw [h1] at h2; cases h2),
      fun q v h1 h2 => (by rw [h1] at h2; cases h2)⟩
  obtain ⟨p, hp⟩ := C24_enough_points (inv := adjInv ℚ) (x := [0, 1, 3]) (y := [(0 : ℚ), 1, 27]) (n := 3) (lo := [some 0]) (hi := [some 27])
    (extrap := some (3, 3)) hS (by decide +kernel) (by simp) (by simp) (by omega) (by simp) (by simp) (by decide) (by simp)
  refine ⟨p, hp, fun t => ?_⟩
  rw [(C118_poly adjInv_ok hS (by decide +kernel) hp C (c := [0, 0, 0, 1]) (by simp) ?_ ?_ ?_).2 rfl]
  · simp [polyVal, sum_range_succ]
  · intro j hj
    have : j = 0 ∨ j = 1 ∨ j = 2 := by simp at hj; omega
    rcases this with rfl | rfl | rfl <;> simp [polyVal, sum_range_succ] <;> norm_num
  · intro q v hq
    cases q with
    | zero => simp [bcItem] at hq; subst hq; simp [taylorCoeff, sum_range_succ]
    | succ q => simp [bcItem] at hq
  · intro q v hq
    cases q with
    | zero => simp [bcItem] at hq; subst hq; simp [taylorCoeff, sum_range_succ]; norm_num [Nat.choose]
    | succ q => simp [bcItem] at hq

/-- A natural cubic spline, and its mirror image. -/
example {S : Scipy ℚ} (hS : ScipyOK S) (u v w : ℚ) : ∃ p q, spline (V := ℚ) (adjInv ℚ) S [0, 1, 3] [u, v, w] 3 = .ok (.pw p) ∧
    spline (V := ℚ) (adjInv ℚ) S [5, 3, -1] [u, v, w] 3 = .ok (.pw q) ∧ ∀ t, q.call (5 - 2 * t) = p.call t := by
  obtain ⟨p, hp⟩ := (C24_default_iff (inv := adjInv ℚ) (x := [0, 1, 3]) (y := [u, v, w]) (n := 3) (extrap := none) hS (by decide +kernel) (by simp)
    (by simp) (by omega)).1 (by decide)
  obtain ⟨q, hq, h⟩ := C118_mirror_default adjInv_ok hS (by decide +kernel) (a := -2) (b := 5) (by norm_num) (by decide) hp
  refine ⟨p, q, hp, ?_, fun t => ?_⟩
  · rw [← hq]; congr 1; norm_num
  · rw [← h t]; congr 1; ring

end Npplus
