import Verif.Props.PlfitOk
import Verif.Props.SplfitOk

/-!
# C117: the fits reproduce data which lie on an admissible function; `plfit` and `splfit` of degree 1 agree
-/

set_option linter.unusedSectionVars false

namespace Npplus
open Spec Finset Fit Spl

variable {K : Type} [Field K] [LinearOrder K] [IsStrictOrderedRing K] [FloorRing K]
  {inv : InvFun K} {S : Scipy K} {H : SolveH K} {x xk : List K} {m : ℕ} {y : List (Fin m → K)}
  {sigy : Option (List (Fin m → K))} {lo hi : List (Fin m → K)} {extrap : Option (ℕ × ℕ)}
  {n : ℕ} {ncArg : Option ℤ} {out out' : SplineOut K (Fin m → K)} {cost : Cost K m}

namespace SameAux

/-- Nothing is left of chi2 when the function goes through the data. -/
theorem chi2_zero {sig : List (Fin m → K)} {g : K → Fin m → K} (hg : ∀ t < x.length, y.getD t 0 = g (x.getD t 0)) :
    chi2 x y sig g = 0 := by
  unfold chi2
  refine sum_eq_zero fun t ht => sum_eq_zero fun i _ => ?_
  rw [hg t (mem_range.mp ht), sub_self, zero_div]; ring

/-- Two functions of zero weighted distance agree on the data. -/
theorem dist_zero {f g : K → Fin m → K} (hy : y.length = x.length) (hsl : (sigy.getD (y.map fun _ _ => 1)).length = y.length)
    (hsig : ∀ l, sigy = some l → ∀ v ∈ l, ∀ i, v i ≠ 0)
    (h0 : ∑ t ∈ range x.length, ∑ i, ((g (x.getD t 0) i - f (x.getD t 0) i) /
            (sigy.getD (y.map fun _ _ => 1)).getD t 0 i) ^ 2 ≤ 0) : ∀ s ∈ x, g s = f s := by
  intro s hsx
  have h0 := le_antisymm h0 (sum_nonneg fun t _ => sum_nonneg fun i _ => sq_nonneg _)
  obtain ⟨t, ht, rfl⟩ := List.getElem_of_mem hsx
  have h1 := (sum_eq_zero_iff_of_nonneg (fun t _ => sum_nonneg fun i _ => sq_nonneg _)).mp h0 t (mem_range.mpr ht)
  funext i
  have h2 := (sum_eq_zero_iff_of_nonneg (fun i _ => sq_nonneg _)).mp h1 i (mem_univ i)
  have h3 := pow_eq_zero_iff (n := 2) (by norm_num) |>.mp h2
  rw [List.getD_eq_getElem _ _ ht] at h3
  rcases div_eq_zero_iff.mp h3 with h4 | h4
  · exact sub_eq_zero.mp h4
  · exfalso
    cases sigy with
    | none =>
      rw [Option.getD_none, List.getD_eq_getElem _ _ (by simp; omega)] at h4
      simp at h4
    | some l =>
      rw [Option.getD_some] at h4 hsl
      rw [List.getD_eq_getElem _ _ (by omega)] at h4
      exact hsig l rfl _ (List.getElem_mem _) i h4

theorem polyline_sub {f g : K → Fin m → K} (hf : IsPolyline xk f) (hg : IsPolyline xk g) (i : Fin m) :
    IsPolyline xk fun t => f t i - g t i := by
  intro j hj
  obtain ⟨a, b, h1⟩ := hf j hj
  obtain ⟨a', b', h2⟩ := hg j hj
  refine ⟨a i - a' i, b i - b' i, fun t t1 t2 => ?_⟩
  show f t i - g t i = _
  rw [h1 t t1 t2, h2 t t1 t2]
  simp only [Pi.add_apply, Pi.smul_apply, smul_eq_mul]; ring

/-- Polylines with the same values at the knots agree between the knots. -/
theorem polyline_ext {f g : K → Fin m → K} (hs : xk.Pairwise (· < ·)) (h2 : 2 ≤ xk.length) (hf : IsPolyline xk f)
    (hg : IsPolyline xk g) (h : ∀ k ∈ xk, f k = g k) {t : K} (t1 : xk.getD 0 0 ≤ t) (t2 : t ≤ xk.getD (xk.length - 1) 0) :
    f t = g t := by
  obtain ⟨a, b, c, -⟩ := index_spec hs h2 t1 t2
  have hm : ∀ j < xk.length, xk.getD j 0 ∈ xk := by
    intro j hj; rw [List.getD_eq_getElem _ _ hj]; exact List.getElem_mem _
  rw [polyline_at hf hs a b c, polyline_at hg hs a b c, h _ (hm _ (by omega)), h _ (hm _ a)]

/-- A polyline as piecewise polynomial of degree 1. -/
theorem pw_of_polyline {g : K → Fin m → K} (hs : xk.Pairwise (· < ·)) (hg : IsPolyline xk g) :
    ∃ C : ℕ → List (Fin m → K), IsPwOn xk 1 C g ∧ SmoothTo xk 0 C ∧
      (2 ≤ xk.length → (C 0).getD 0 0 = g (xk.getD 0 0) ∧ rightCoeff xk C (xk.length - 2) 0 = g (xk.getD (xk.length - 1) 0)) := by
  choose! a b hab using hg
  have hle : ∀ j, j + 1 < xk.length → xk.getD j 0 ≤ xk.getD (j + 1) 0 := fun j hj => (sub_pos.mp (width_pos hs hj)).le
  have hr : ∀ j, j + 1 < xk.length → rightCoeff xk (fun j => [a j + xk.getD j 0 • b j, b j]) j 0 = g (xk.getD (j + 1) 0) := by
    intro j hj
    rw [hab j hj _ (hle j hj) le_rfl]
    unfold rightCoeff taylorCoeff
    simp only [List.length_cons, List.length_nil, sum_range_succ, sum_range_zero]
    funext i
    simp
    ring
  refine ⟨fun j => [a j + xk.getD j 0 • b j, b j], fun j hj => ⟨rfl, fun t t1 t2 => ?_⟩, fun j hj k hk => ?_, fun h2 => ⟨?_, ?_⟩⟩
  · have t1' : xk.getD j 0 ≤ t := by
      rcases t1 with t1 | ⟨rfl, t1⟩
      · exact t1.le
      · exact t1.le
    rw [hab j hj t t1' t2]
    unfold polyVal
    simp only [List.length_cons, List.length_nil, sum_range_succ, sum_range_zero]
    funext i
    simp
    ring
  · obtain rfl : k = 0 := by omega
    unfold jump
    rw [hr j (by omega), sub_eq_zero, hab (j + 1) (by omega) _ le_rfl (hle _ (by omega))]
    simp
  · rw [hab 0 (by omega) _ le_rfl (hle 0 (by omega))]
    simp
  · rw [hr _ (by omega)]
    congr 2; omega

/-- A continuous piecewise polynomial of degree 1 is a polyline. -/
theorem polyline_of_pw {C : ℕ → List (Fin m → K)} {g : K → Fin m → K} (hs : xk.Pairwise (· < ·)) (hg : IsPwOn xk 1 C g)
    (hsm : SmoothTo xk 0 C) : IsPolyline xk g ∧ (2 ≤ xk.length → g (xk.getD 0 0) = (C 0).getD 0 0 ∧
      g (xk.getD (xk.length - 1) 0) = rightCoeff xk C (xk.length - 2) 0) := by
  have hlt : ∀ j, j + 1 < xk.length → xk.getD j 0 < xk.getD (j + 1) 0 := fun j hj => sub_pos.mp (width_pos hs hj)
  have hC : ∀ j, j + 1 < xk.length → ∀ s : K, polyVal (C j) s = (C j).getD 0 0 + s • (C j).getD 1 0 := by
    intro j hj s
    obtain ⟨h1, -⟩ := hg j hj
    unfold polyVal
    rw [h1]
    simp [sum_range_succ]
  have hR : ∀ j, j + 1 < xk.length → rightCoeff xk C j 0 = polyVal (C j) (xk.getD (j + 1) 0 - xk.getD j 0) := by
    intro j hj
    unfold rightCoeff taylorCoeff polyVal
    refine sum_congr rfl fun i _ => ?_
    simp
  have hright : ∀ j, j + 1 < xk.length → g (xk.getD (j + 1) 0) = rightCoeff xk C j 0 := by
    intro j hj
    rw [hR j hj, (hg j hj).2 _ (.inl (hlt j hj)) le_rfl]
  have hleft : ∀ j, j + 1 < xk.length → g (xk.getD j 0) = (C j).getD 0 0 := by
    intro j hj
    cases j with
    | zero => rw [(hg 0 hj).2 _ (.inr ⟨rfl, rfl⟩) (hlt 0 hj).le, sub_self, hC 0 hj]; simp
    | succ j =>
      rw [hright j (by omega)]
      have := hsm j (by omega) 0 le_rfl
      unfold jump at this
      exact (sub_eq_zero.mp this).symm
  refine ⟨fun j hj => ⟨(C j).getD 0 0 - xk.getD j 0 • (C j).getD 1 0, (C j).getD 1 0, fun t t1 t2 => ?_⟩, fun h2 => ⟨hleft 0 (by omega), ?_⟩⟩
  · rcases t1.lt_or_eq with t1 | rfl
    · rw [(hg j hj).2 t (.inl t1) t2, hC j hj, sub_smul]; abel
    · rw [hleft j hj]; abel
  · rw [← hright _ (by omega)]
    congr 2; omega

end SameAux

open SameAux

/-- **C117** — data on an admissible function: when some piecewise polynomial `g` of degree `n` on the knots of the fit, with
the required continuity and end values, goes through all points, then the result of `splfit` goes through all points,
whatever the weights. -/
theorem C117_splfit_exact (hS : ScipyOK S) (hs : xk.Pairwise (· < ·))
    (hsig : ∀ l, sigy = some l → ∀ v ∈ l, ∀ i, v i ≠ 0)
    (h : splfit S xk x y sigy n ncArg lo hi false extrap = .ok (out, cost)) {xk' : List K} (hk : FitKnots xk x xk')
    {nc : ℕ} (hor : ncArg = none ∧ nc + 1 = n ∨ ncArg = some (nc : ℤ)) {C : ℕ → List (Fin m → K)} {g : K → Fin m → K}
    (hg : IsPwOn xk' n C g) (hsm : SmoothTo xk' nc C) (hend : EndValues xk' C lo hi)
    (hdata : ∀ t < x.length, y.getD t 0 = g (x.getD t 0)) :
    ∃ p, out = .pw p ∧ ∀ t < x.length, p.call (x.getD t 0) = y.getD t 0 := by
  obtain ⟨p, xk2, nc2, rfl, hk2, hor2, -, -, -, key⟩ := C34_minimal hS hs hsig h
  obtain rfl := hk.unique hk2
  obtain rfl : nc2 = nc := by
    rcases hor with ⟨a, b⟩ | a <;> rcases hor2 with ⟨c, d⟩ | c
    · omega
    · rw [a] at c; cases c
    · rw [a] at c; cases c
    · rw [a] at c; simpa using c.symm
  refine ⟨p, rfl, fun t ht => ?_⟩
  obtain ⟨-, -, k3⟩ := key C g hg hsm hend
  rw [hdata t ht]
  refine (k3 ?_ _ (by rw [List.getD_eq_getElem _ _ ht]; exact List.getElem_mem _)).symm
  rw [chi2_zero hdata]
  exact sum_nonneg fun t _ => sum_nonneg fun i _ => sq_nonneg _

/-- The same for `plfit`. -/
theorem C117_plfit_exact (hinv : InvOK inv) (hS : ScipyOK S) (hH : SolveHOK H) (hs : xk.Pairwise (· < ·))
    (hsig : ∀ l, sigy = some l → ∀ v ∈ l, ∀ i, v i ≠ 0)
    (h : plfit inv S H xk x y sigy lo hi false extrap = .ok out) {xk' : List K} (hk : FitKnots xk x xk')
    {g : K → Fin m → K} (hg : IsPolyline xk' g) (hg0 : ∀ l, lo = [l] → g (xk.getD 0 0) = l)
    (hgl : ∀ l, hi = [l] → g (xk.getD (xk.length - 1) 0) = l)
    (hdata : ∀ t < x.length, y.getD t 0 = g (x.getD t 0)) :
    ∃ p, out = .pw p ∧ ∀ t < x.length, p.call (x.getD t 0) = y.getD t 0 := by
  obtain ⟨p, xk2, rfl, hk2, -, -, -, -, -, -, key⟩ := C31_plfit hinv hS hH hs hsig h
  obtain rfl := hk.unique hk2
  obtain ⟨s, yk, -, -, -, hy, hsl, -⟩ := plfit_ok h
  obtain ⟨k1, -⟩ := key g hg hg0 hgl
  refine ⟨p, rfl, fun t ht => ?_⟩
  rw [hdata t ht]
  refine (dist_zero hy hsl hsig ?_ _ (by rw [List.getD_eq_getElem _ _ ht]; exact List.getElem_mem _)).symm
  rw [chi2_zero hdata] at k1
  have : 0 ≤ chi2 x y (sigy.getD (y.map fun _ _ => 1)) p.call := sum_nonneg fun t _ => sum_nonneg fun i _ => sq_nonneg _
  linarith

/-- **C117** — when moreover the data determine the polyline, `plfit` returns the very object `pline` makes of the values of
`g` at the knots: they agree everywhere, beyond the knots too. -/
theorem C117_plfit_pline (hinv : InvOK inv) (hS : ScipyOK S) (hH : SolveHOK H) (hs : xk.Pairwise (· < ·)) (h2 : 2 ≤ xk.length)
    (hx : x ≠ []) (hy : y.length = x.length) (hsg : (sigy.getD (y.map fun _ _ => 1)).length = y.length)
    (hsig : ∀ v ∈ sigy.getD (y.map fun _ _ => 1), ∀ i, v i ≠ 0) (hl1 : lo.length ≤ 1) (hh1 : hi.length ≤ 1)
    (hl : lo ≠ [] → ∀ t ∈ x, xk.getD 0 0 ≤ t) (hh : hi ≠ [] → ∀ t ∈ x, t ≤ xk.getD (xk.length - 1) 0)
    {xk' : List K} (hk : FitKnots xk x xk') (h3 : lo ≠ [] → hi ≠ [] → 3 ≤ xk.length)
    (hdet : ∀ g : K → K, IsPolyline xk' g → (lo ≠ [] → g (xk.getD 0 0) = 0) → (hi ≠ [] → g (xk.getD (xk.length - 1) 0) = 0) →
      (∀ t ∈ x, g t = 0) → ∀ k ∈ xk', g k = 0)
    {g : K → Fin m → K} (hg : IsPolyline xk' g) (hg0 : ∀ l, lo = [l] → g (xk.getD 0 0) = l)
    (hgl : ∀ l, hi = [l] → g (xk.getD (xk.length - 1) 0) = l)
    (hdata : ∀ t < x.length, y.getD t 0 = g (x.getD t 0)) :
    plfit inv S H xk x y sigy lo hi false extrap = pline inv S xk' (xk'.map g) extrap ∧
      ∃ p, pline inv S xk' (xk'.map g) extrap = .ok (.pw p) := by
  obtain ⟨out, h⟩ := C31_succeeds (extrap := extrap) hinv hS hH hs h2 hx hy hsg hsig hl1 hh1 hl hh hk h3 hdet
  have hsig' : ∀ l, sigy = some l → ∀ v ∈ l, ∀ i, v i ≠ 0 := by rintro l rfl; exact hsig
  obtain ⟨p, xk2, rfl, hk2, -, -, -, hpoly, hp0, hpl, -⟩ := C31_plfit hinv hS hH hs hsig' h
  obtain rfl := hk.unique hk2
  obtain ⟨p', e, hex⟩ := C117_plfit_exact hinv hS hH hs hsig' h hk hg hg0 hgl hdata
  cases e
  obtain ⟨s, yk, hset, -, -, -, -, hyk, hpline⟩ := plfit_ok h
  obtain ⟨-, e1, e2, e3, -, hnp⟩ := setup_ok hset hs
  obtain ⟨-, esx, hfk, h2', -, -⟩ := hnp rfl
  obtain rfl := hk.unique hfk
  have hknot : ∀ k ∈ s.xk, p.call k = g k := by
    intro k hkm
    funext i
    refine sub_eq_zero.mp (hdet _ (polyline_sub hpoly hg i) (fun a => ?_) (fun a => ?_) (fun t ht => ?_) k hkm)
    · obtain ⟨l, hl⟩ : ∃ l, lo = [l] := List.length_eq_one_iff.mp (by have := List.length_pos_iff.mpr a; omega)
      rw [hp0 l hl, hg0 l hl, sub_self]
    · obtain ⟨l, hl⟩ : ∃ l, hi = [l] := List.length_eq_one_iff.mp (by have := List.length_pos_iff.mpr a; omega)
      rw [hpl l hl, hgl l hl, sub_self]
    · obtain ⟨t, ht', rfl⟩ := List.getElem_of_mem ht
      have h1 := hex t ht'
      rw [hdata t ht', List.getD_eq_getElem _ _ ht'] at h1
      rw [h1, sub_self]
  have hY : ((List.range s.xk.length).map fun k i => yk i k) = s.xk.map g := by
    obtain ⟨q, hq, -, -, -, -, hline, -⟩ := C30_pline (S := S) (y := (List.range s.xk.length).map fun k i => yk i k) (extrap := s.extrap)
      hinv hS hfk.inc h2' (by simp)
    rw [hq] at hpline
    cases hpline
    refine List.ext_getElem (by simp) fun k k1 k2 => ?_
    have k1 : k < s.xk.length := by simpa using k1
    have hYk : ∀ k < s.xk.length, ((List.range s.xk.length).map fun k i => yk i k).getD k 0 = fun i => yk i k := by
      intro k hk; rw [List.getD_eq_getElem _ _ (by simpa using hk)]; simp
    have hv : p.call (s.xk.getD k 0) = fun i => yk i k := by
      rcases Nat.lt_or_ge (k + 1) s.xk.length with hk1 | hk1
      · rw [hline k hk1 _ le_rfl (Spl.width_pos hfk.inc hk1 |> sub_pos.mp).le, lineThrough, sub_self, zero_div, zero_smul, add_zero, hYk k k1]
      · obtain ⟨j, rfl⟩ : ∃ j, k = j + 1 := ⟨k - 1, by omega⟩
        have hw := Spl.width_pos hfk.inc (show j + 1 < s.xk.length by omega)
        unfold Spl.width at hw
        rw [hline j k1 _ (sub_pos.mp hw).le le_rfl, lineThrough, div_self hw.ne', one_smul, add_sub_cancel, hYk _ k1]
    simp only [List.getElem_map, List.getElem_range]
    rw [← hknot _ (List.getElem_mem _), ← hv, List.getD_eq_getElem _ _ k1]
  rw [hY, e3] at hpline
  exact ⟨by rw [h, hpline], p, hpline⟩

/-- **C117** — one point per knot: `plfit(x, x, y)` is `pline(x, y)`, whatever the weights. -/
theorem C117_plfit_interp (hinv : InvOK inv) (hS : ScipyOK S) (hH : SolveHOK H) (hs : x.Pairwise (· < ·)) (h2 : 2 ≤ x.length)
    (hy : y.length = x.length) (hsg : (sigy.getD (y.map fun _ _ => 1)).length = y.length)
    (hsig : ∀ v ∈ sigy.getD (y.map fun _ _ => 1), ∀ i, v i ≠ 0) :
    plfit inv S H x x y sigy [] [] false extrap = pline inv S x y extrap := by
  have hne : x ≠ [] := by rintro rfl; simp at h2
  have hk : FitKnots x x x := ⟨hs, fun t => by tauto⟩
  obtain ⟨q, hq, -, -, -, hint, hline, -⟩ := C30_pline (S := S) (y := y) (extrap := none) hinv hS hs h2 hy
  have hv : ∀ t < x.length, y.getD t 0 = q.call (x.getD t 0) := by
    intro k k1
    rcases Nat.lt_or_ge (k + 1) x.length with hk1 | hk1
    · rw [hline k hk1 _ le_rfl (Spl.width_pos hs hk1 |> sub_pos.mp).le, lineThrough, sub_self, zero_div, zero_smul, add_zero]
    · obtain ⟨j, rfl⟩ : ∃ j, k = j + 1 := ⟨k - 1, by omega⟩
      have hw := Spl.width_pos hs (show j + 1 < x.length by omega)
      unfold Spl.width at hw
      rw [hline j k1 _ (sub_pos.mp hw).le le_rfl, lineThrough, div_self hw.ne', one_smul, add_sub_cancel]
  have := (C117_plfit_pline (lo := []) (hi := []) (extrap := extrap) hinv hS hH hs h2 hne hy hsg hsig (by simp) (by simp) (by simp) (by simp)
    hk (by simp) (fun g _ _ _ h0 => h0) (lineThrough_isPolyline hline) (by simp) (by simp) hv).1
  rw [this]
  congr 1
  refine List.ext_getElem (by simp [hy]) fun k k1 k2 => ?_
  have k1 : k < x.length := by simpa using k1
  have := hv k k1
  rw [List.getD_eq_getElem _ _ k1, List.getD_eq_getElem _ _ k2] at this
  rw [List.getElem_map, this]

/-- **C117** — `splfit` with `n=1` is `plfit`: with the same arguments both results have the same values at the data, and, when
the data determine the polyline, everywhere between the knots. -/
theorem C117_same (hinv : InvOK inv) (hS : ScipyOK S) (hH : SolveHOK H) (hs : xk.Pairwise (· < ·))
    (hsig : ∀ l, sigy = some l → ∀ v ∈ l, ∀ i, v i ≠ 0) (hnc : ncArg = none ∨ ncArg = some 0) (hl1 : lo.length ≤ 1) (hh1 : hi.length ≤ 1)
    {extrap' : Option (ℕ × ℕ)} (h : plfit inv S H xk x y sigy lo hi false extrap = .ok out)
    (h' : splfit S xk x y sigy 1 ncArg lo hi false extrap' = .ok (out', cost)) :
    ∃ p q xk', out = .pw p ∧ out' = .pw q ∧ FitKnots xk x xk' ∧ p.xk = xk' ∧ (∀ t ∈ x, p.call t = q.call t) ∧
      chi2 x y (sigy.getD (y.map fun _ _ => 1)) p.call = chi2 x y (sigy.getD (y.map fun _ _ => 1)) q.call ∧
      ((∀ g : K → K, IsPolyline xk' g → (lo ≠ [] → g (xk.getD 0 0) = 0) → (hi ≠ [] → g (xk.getD (xk.length - 1) 0) = 0) →
        (∀ t ∈ x, g t = 0) → ∀ k ∈ xk', g k = 0) →
        ∀ t, xk'.getD 0 0 ≤ t → t ≤ xk'.getD (xk'.length - 1) 0 → p.call t = q.call t) := by
  obtain ⟨p, xk', rfl, hk, -, hpx, -, hpoly, hp0, hpl, key⟩ := C31_plfit hinv hS hH hs hsig h
  obtain ⟨q, xk2, nc, rfl, hk2, hor, hlo, hhi, ⟨C, hC, hsm, hend⟩, keyq⟩ := C34_minimal hS hs hsig h'
  obtain rfl := hk.unique hk2
  obtain ⟨s, -, hset, -⟩ := plfit_ok h
  obtain ⟨-, -, -, -, -, hnp⟩ := setup_ok hset hs
  obtain ⟨-, -, hfk, h2', -, -⟩ := hnp rfl
  obtain rfl := hk.unique hfk
  obtain rfl : nc = 0 := by
    rcases hor with ⟨-, a⟩ | a
    · omega
    · rcases hnc with c | c
      · rw [c] at a; cases a
      · rw [c] at a; simpa using a.symm
  obtain ⟨hqpoly, hqe⟩ := polyline_of_pw hk.inc hC hsm
  obtain ⟨hqe0, hqel⟩ := hqe h2'
  have hq0 : ∀ l, lo = [l] → q.call (xk.getD 0 0) = l := by
    intro l e
    rw [← hlo (by rw [e]; simp), hqe0, hend.1 0 (by rw [e]; simp), e]; simp
  have hql : ∀ l, hi = [l] → q.call (xk.getD (xk.length - 1) 0) = l := by
    intro l e
    rw [← hhi (by rw [e]; simp), hqel, hend.2 0 (by rw [e]; simp), e]; simp
  obtain ⟨D, hD, hDs, hDe⟩ := pw_of_polyline hk.inc hpoly
  obtain ⟨hD0, hDl⟩ := hDe h2'
  have hDend : EndValues s.xk D lo hi := by
    constructor
    · intro k hk'
      obtain rfl : k = 0 := by omega
      obtain ⟨l, e⟩ : ∃ l, lo = [l] := List.length_eq_one_iff.mp (by omega)
      rw [hD0, hlo (by rw [e]; simp), hp0 l e, e]; simp
    · intro k hk'
      obtain rfl : k = 0 := by omega
      obtain ⟨l, e⟩ : ∃ l, hi = [l] := List.length_eq_one_iff.mp (by omega)
      rw [hDl, hhi (by rw [e]; simp), hpl l e, e]; simp
  obtain ⟨-, c1⟩ := key _ hqpoly hq0 hql
  obtain ⟨-, c2, c3⟩ := keyq D _ hD hDs hDend
  have hx := c3 c1
  refine ⟨p, q, s.xk, rfl, rfl, hk, hpx, hx, le_antisymm c1 c2, fun hdet t t1 t2 => ?_⟩
  refine polyline_ext hk.inc h2' hpoly hqpoly (fun k hkm => ?_) t1 t2
  funext i
  refine sub_eq_zero.mp (hdet _ (polyline_sub hpoly hqpoly i) (fun a => ?_) (fun a => ?_) (fun t ht => ?_) k hkm)
  · obtain ⟨l, e⟩ : ∃ l, lo = [l] := List.length_eq_one_iff.mp (by have := List.length_pos_iff.mpr a; omega)
    rw [hp0 l e, hq0 l e, sub_self]
  · obtain ⟨l, e⟩ : ∃ l, hi = [l] := List.length_eq_one_iff.mp (by have := List.length_pos_iff.mpr a; omega)
    rw [hpl l e, hql l e, sub_self]
  · rw [hx t ht, sub_self]

/-! ### non-trivial instances -/

/-- Both fits of five points with three knots. -/
example : ((plfit (m := 1) (adjInv ℚ) (exactScipy ℚ) (exactH ℚ) [0, 2, 4] [0, 1, 2, 3, 4]
      [fun _ => 0, fun _ => 1, fun _ => 1, fun _ => 1, fun _ => 2]).bind fun o =>
      [(0 : ℚ), 2, 3, 4].mapM fun t => (o.at t).map (· 0)) = .ok [1/5, 1, 7/5, 9/5] ∧
    ((splfit (m := 1) (exactScipy ℚ) [0, 2, 4] [0, 1, 2, 3, 4]
      [fun _ => 0, fun _ => 1, fun _ => 1, fun _ => 1, fun _ => 2] none 1 none).bind fun o =>
      [(0 : ℚ), 2, 3, 4].mapM fun t => (o.1.at t).map (· 0)) = .ok [1/5, 1, 7/5, 9/5] := by decide +kernel

/-- One point per knot. -/
example : plfit (m := 1) (adjInv ℚ) (exactScipy ℚ) (exactH ℚ) [0, 1, 3] [0, 1, 3] [fun _ => 2, fun _ => 5, fun _ => 1]
      (some [fun _ => 1, fun _ => 2, fun _ => 1/3]) =
    pline (adjInv ℚ) (exactScipy ℚ) [0, 1, 3] [fun _ => 2, fun _ => 5, fun _ => 1] none :=
  C117_plfit_interp adjInv_ok exactScipy_ok exactH_ok (by decide) (by decide) (by simp) (by simp) (by
    intro v hv i
    simp at hv
    rcases hv with rfl | rfl | rfl <;> norm_num)

end Npplus
