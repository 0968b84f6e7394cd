import Verif.Lemmas.Plfit

/-!
# C31, C32, C36: `plfit`
-/

set_option linter.unusedSectionVars false

namespace Npplus
open Spec Finset Fit

variable {K : Type} [Field K] [LinearOrder K] [IsStrictOrderedRing K] [FloorRing K] {m : ℕ}
  {inv : InvFun K} {S : Scipy K} {H : SolveH K} {xk x : List K} {y : List (Fin m → K)}
  {sigy : Option (List (Fin m → K))} {lo hi : List (Fin m → K)} {per : Bool} {extrap : Option (ℕ × ℕ)}
  {out : SplineOut K (Fin m → K)}

/-- A polyline between two knots. -/
theorem polyline_at {V : Type} [AddCommGroup V] [Module K V] {g : K → V} (hg : IsPolyline xk g)
    (hs : xk.Pairwise (· < ·)) {j : ℕ} (hj : j + 1 < xk.length) {t : K} (h1 : xk.getD j 0 ≤ t)
    (h2 : t ≤ xk.getD (j + 1) 0) :
    g t = (1 - (t - xk.getD j 0) * (1 / Spl.width xk j)) • g (xk.getD j 0) +
      ((t - xk.getD j 0) * (1 / Spl.width xk j)) • g (xk.getD (j + 1) 0) := by
  obtain ⟨a, b, hab⟩ := hg j hj
  have hw : Spl.width xk j ≠ 0 := Spl.width_ne hs hj
  rw [hab t h1 h2, hab _ le_rfl (h1.trans h2), hab _ (h1.trans h2) le_rfl]
  have e : xk.getD (j + 1) 0 = xk.getD j 0 + Spl.width xk j := by unfold Spl.width; ring
  rw [e]
  simp only [smul_add, smul_smul]
  have e2 : t = (1 - (t - xk.getD j 0) * (1 / Spl.width xk j)) * xk.getD j 0 +
      (t - xk.getD j 0) * (1 / Spl.width xk j) * (xk.getD j 0 + Spl.width xk j) := by
    field_simp; ring
  conv_lhs => rw [e2]
  rw [add_smul]
  have e3 : a = (1 - (t - xk.getD j 0) * (1 / Spl.width xk j)) • a + ((t - xk.getD j 0) * (1 / Spl.width xk j)) • a := by
    rw [← add_smul, sub_add_cancel, one_smul]
  conv_lhs => rw [e3]
  abel

/-- The interpolating polyline of a table is a polyline. -/
theorem lineThrough_eq {V : Type} [AddCommGroup V] [Module K V] (y : List V) (j : ℕ) (t : K) :
    lineThrough xk y j t = (1 - (t - xk.getD j 0) * (1 / Spl.width xk j)) • y.getD j 0 +
      ((t - xk.getD j 0) * (1 / Spl.width xk j)) • y.getD (j + 1) 0 := by
  unfold lineThrough Spl.width
  rw [div_eq_mul_one_div, smul_sub, sub_smul, one_smul]
  abel

theorem lineThrough_isPolyline {V : Type} [AddCommGroup V] [Module K V] {y : List V} {f : K → V}
    (h : ∀ j, j + 1 < xk.length → ∀ t, xk.getD j 0 ≤ t → t ≤ xk.getD (j + 1) 0 → f t = lineThrough xk y j t) :
    IsPolyline xk f := by
  intro j hj
  refine ⟨y.getD j 0 - (xk.getD j 0 / (xk.getD (j + 1) 0 - xk.getD j 0)) • (y.getD (j + 1) 0 - y.getD j 0),
    (1 / (xk.getD (j + 1) 0 - xk.getD j 0)) • (y.getD (j + 1) 0 - y.getD j 0), fun t h1 h2 => ?_⟩
  rw [h j hj t h1 h2, lineThrough, smul_smul, mul_one_div, sub_div, sub_smul]
  abel

theorem plfit_ok (h : plfit inv S H xk x y sigy lo hi per extrap = .ok out) :
    ∃ (s : Setup K m) (yk : Fin m → ℕ → K), setup xk x lo hi per extrap = .ok s ∧ s.lo.length ≤ 1 ∧ s.hi.length ≤ 1 ∧ y.length = x.length ∧
      (sigy.getD (y.map fun _ _ => 1)).length = y.length ∧
      (∀ i, plComp S H s.xk.length x.length (fun t => index s.xk (s.x.getD t 0))
        (fun t => (s.x.getD t 0 - s.xk.getD (index s.xk (s.x.getD t 0)) 0) * (1 / Spl.width s.xk (index s.xk (s.x.getD t 0))))
        (fun t => y.getD t 0 i)
        (fun t => 1 / ((sigy.getD (y.map fun _ _ => 1)).getD t 0 i * (sigy.getD (y.map fun _ _ => 1)).getD t 0 i))
        (s.lo.head?.map (· i)) (s.hi.head?.map (· i)) per = .ok (yk i)) ∧
      pline inv S s.xk ((List.range s.xk.length).map fun k i => yk i k) s.extrap per = .ok out := by
  unfold plfit at h
  simp only [bind, Except.bind, throw, throwThe, MonadExceptOf.throw] at h
  split at h
  · cases h
  next s hs =>
  by_cases h1 : 1 < s.lo.length ∨ 1 < s.hi.length
  · rw [if_pos h1] at h; cases h
  rw [if_neg h1] at h
  try simp only [pure, Except.pure] at h
  by_cases h2 : y.length ≠ x.length
  · rw [if_pos h2] at h; cases h
  rw [if_neg h2] at h
  try simp only [pure, Except.pure] at h
  by_cases h3 : (sigy.getD (y.map fun _ _ => 1)).length ≠ y.length
  · rw [if_pos h3] at h; cases h
  rw [if_neg h3] at h
  try simp only [pure, Except.pure] at h
  split at h
  · cases h
  next yk hyk =>
  exact ⟨s, yk, hs, by omega, by omega, by omega, by omega, seqFin_ok.mp hyk, h⟩

/-- Orthogonality of the residuals gives the exact change of `chi2`. -/
theorem comp_opt {N nun : ℕ} {ix : ℕ → ℕ} (hix : ∀ t < N, ix t + 1 < nun) {w p yy v v' : ℕ → K}
    (hw : ∑ k ∈ range nun, (bincount N ix (fun t => w t * (1 - p t) * (1 - p t)) k +
        bincount N (fun t => 1 + ix t) (fun t => w t * p t * p t) k) * ((v' k - v k) * v k) +
      ∑ k ∈ range (nun - 1), bincount N ix (fun t => w t * p t * (1 - p t)) k *
        ((v' (k + 1) - v (k + 1)) * v k + (v' k - v k) * v (k + 1)) =
      ∑ k ∈ range nun, (bincount N ix (fun t => w t * (1 - p t) * yy t) k +
        bincount N (fun t => 1 + ix t) (fun t => w t * p t * yy t) k) * (v' k - v k)) :
    ∑ t ∈ range N, w t * ((1 - p t) * v' (ix t) + p t * v' (ix t + 1) - yy t) ^ 2 =
      ∑ t ∈ range N, w t * ((1 - p t) * v (ix t) + p t * v (ix t + 1) - yy t) ^ 2 +
      ∑ t ∈ range N, w t * (((1 - p t) * v' (ix t) + p t * v' (ix t + 1)) - ((1 - p t) * v (ix t) + p t * v (ix t + 1))) ^ 2 := by
  have h1 := tri_form hix w p (fun t => 1 - p t) (fun k => v' k - v k) v
  have h2 := tri_rhs hix w p (fun t => 1 - p t) yy (fun k => v' k - v k)
  rw [h1, h2, ← sub_eq_zero, ← sum_sub_distrib] at hw
  rw [← sub_eq_zero, ← sum_add_distrib, ← sum_sub_distrib]
  have := congrArg (2 * ·) hw
  simp only [mul_zero, mul_sum] at this
  rw [← this]
  refine sum_congr rfl fun t _ => ?_
  ring

theorem weight_sq (s a : K) : (a / s) ^ 2 = 1 / (s * s) * a ^ 2 := by rw [div_pow, sq s]; ring

/-- Data and the interval they belong to. -/
theorem polyline_data {g : K → Fin m → K} {xs : List K} (hg : IsPolyline xk g) (hs : xk.Pairwise (· < ·)) (h2 : 2 ≤ xk.length)
    {t : ℕ} (h0 : xk.getD 0 0 ≤ xs.getD t 0) (h1 : xs.getD t 0 ≤ xk.getD (xk.length - 1) 0) (i : Fin m) :
    g (xs.getD t 0) i =
      (1 - (xs.getD t 0 - xk.getD (index xk (xs.getD t 0)) 0) * (1 / Spl.width xk (index xk (xs.getD t 0)))) *
        g (xk.getD (index xk (xs.getD t 0)) 0) i +
      (xs.getD t 0 - xk.getD (index xk (xs.getD t 0)) 0) * (1 / Spl.width xk (index xk (xs.getD t 0))) *
        g (xk.getD (index xk (xs.getD t 0) + 1) 0) i := by
  obtain ⟨a, b, c, -⟩ := index_spec hs h2 h0 h1
  have := congrFun (polyline_at hg hs a b c) i
  simpa using this

/-- The core of C31 and C32: `f` and `g` are polylines, the knot values of `f` were computed by `plComp`. -/
theorem chi2_identity {xs : List K} {sig : List (Fin m → K)} {f g : K → Fin m → K} (hf : IsPolyline xk f)
    (hg : IsPolyline xk g) (hs : xk.Pairwise (· < ·)) (h2 : 2 ≤ xk.length)
    (hr : ∀ t < xs.length, xk.getD 0 0 ≤ xs.getD t 0 ∧ xs.getD t 0 ≤ xk.getD (xk.length - 1) 0)
    (hw : ∀ i, ∀ w p : ℕ → K, (∀ t, w t = 1 / (sig.getD t 0 i * sig.getD t 0 i)) →
      (∀ t, p t = (xs.getD t 0 - xk.getD (index xk (xs.getD t 0)) 0) * (1 / Spl.width xk (index xk (xs.getD t 0)))) →
      ∑ k ∈ range xk.length, (bincount xs.length (fun t => index xk (xs.getD t 0)) (fun t => w t * (1 - p t) * (1 - p t)) k +
        bincount xs.length (fun t => 1 + index xk (xs.getD t 0)) (fun t => w t * p t * p t) k) *
          ((g (xk.getD k 0) i - f (xk.getD k 0) i) * f (xk.getD k 0) i) +
      ∑ k ∈ range (xk.length - 1), bincount xs.length (fun t => index xk (xs.getD t 0)) (fun t => w t * p t * (1 - p t)) k *
        ((g (xk.getD (k + 1) 0) i - f (xk.getD (k + 1) 0) i) * f (xk.getD k 0) i +
          (g (xk.getD k 0) i - f (xk.getD k 0) i) * f (xk.getD (k + 1) 0) i) =
      ∑ k ∈ range xk.length, (bincount xs.length (fun t => index xk (xs.getD t 0)) (fun t => w t * (1 - p t) * y.getD t 0 i) k +
        bincount xs.length (fun t => 1 + index xk (xs.getD t 0)) (fun t => w t * p t * y.getD t 0 i) k) *
          (g (xk.getD k 0) i - f (xk.getD k 0) i)) :
    chi2 xs y sig g = chi2 xs y sig f +
      ∑ t ∈ range xs.length, ∑ i, ((g (xs.getD t 0) i - f (xs.getD t 0) i) / sig.getD t 0 i) ^ 2 := by
  unfold chi2
  rw [sum_comm, sum_comm (s := range xs.length) (t := univ), sum_comm (s := range xs.length) (t := univ), ← sum_add_distrib]
  refine sum_congr rfl fun i _ => ?_
  have := comp_opt (N := xs.length) (nun := xk.length) (ix := fun t => index xk (xs.getD t 0))
    (fun t ht => (index_spec hs h2 (hr t ht).1 (hr t ht).2).1) (yy := fun t => y.getD t 0 i)
    (v := fun k => f (xk.getD k 0) i) (v' := fun k => g (xk.getD k 0) i) (hw i _ _ (fun _ => rfl) (fun _ => rfl))
  have e : ∀ t ∈ range xs.length, ((g (xs.getD t 0) i - y.getD t 0 i) / sig.getD t 0 i) ^ 2 = _ := fun t ht => by
    rw [weight_sq, polyline_data hg hs h2 (hr t (mem_range.mp ht)).1 (hr t (mem_range.mp ht)).2 i]
  rw [sum_congr rfl e, this]
  congr 1
  · refine sum_congr rfl fun t ht => ?_
    rw [weight_sq, polyline_data hf hs h2 (hr t (mem_range.mp ht)).1 (hr t (mem_range.mp ht)).2 i]
  · refine sum_congr rfl fun t ht => ?_
    rw [weight_sq, polyline_data hf hs h2 (hr t (mem_range.mp ht)).1 (hr t (mem_range.mp ht)).2 i,
      polyline_data hg hs h2 (hr t (mem_range.mp ht)).1 (hr t (mem_range.mp ht)).2 i]


/-- **C31** (and **C32**, end values) — with increasing knots `xk`: when `plfit` returns, the result is a PwPoly of
degree 1 on the knots `xk'` (`xk`, extended to the data range), linear between neighbouring knots, with the prescribed
end values if `lo` or `hi` is given, and for every polyline `g` on these knots (with the same end values)
`chi2(g) = chi2(result) + Σ ((g-result)/sigy)²`, so `chi2` is minimal. -/
theorem C31_plfit (hinv : InvOK inv) (hS : ScipyOK S) (hH : SolveHOK H) (hs : xk.Pairwise (· < ·))
    (_hsig : ∀ l, sigy = some l → ∀ v ∈ l, ∀ i, v i ≠ 0)
    (h : plfit inv S H xk x y sigy lo hi false extrap = .ok out) :
    ∃ p xk', out = .pw p ∧ FitKnots xk x xk' ∧ WF p ∧ p.xk = xk' ∧ p.deg = 1 ∧ IsPolyline xk' p.call ∧
      (∀ l, lo = [l] → p.call (xk.getD 0 0) = l) ∧ (∀ l, hi = [l] → p.call (xk.getD (xk.length - 1) 0) = l) ∧
      ∀ g : K → Fin m → K, IsPolyline xk' g → (∀ l, lo = [l] → g (xk.getD 0 0) = l) →
        (∀ l, hi = [l] → g (xk.getD (xk.length - 1) 0) = l) →
        chi2 x y (sigy.getD (y.map fun _ _ => 1)) g = chi2 x y (sigy.getD (y.map fun _ _ => 1)) p.call +
          (∑ t ∈ range x.length, ∑ i, ((g (x.getD t 0) i - p.call (x.getD t 0) i) /
            (sigy.getD (y.map fun _ _ => 1)).getD t 0 i) ^ 2) ∧
        chi2 x y (sigy.getD (y.map fun _ _ => 1)) p.call ≤ chi2 x y (sigy.getD (y.map fun _ _ => 1)) g := by
  obtain ⟨s, yk, hset, hl1, hh1, hy, hsg, hyk, hpl⟩ := plfit_ok h
  obtain ⟨h2, e1, e2, e3, -, hnp⟩ := setup_ok hset hs
  obtain ⟨hx, esx, hfk, h2', hlo0, hhi0⟩ := hnp rfl
  rw [esx] at hyk
  set xk' := s.xk with hxk'
  set Y : List (Fin m → K) := (List.range xk'.length).map fun k i => yk i k with hY
  have hYk : ∀ k < xk'.length, Y.getD k 0 = fun i => yk i k := by
    intro k hk; rw [hY, List.getD_eq_getElem _ _ (by simpa using hk)]; simp
  obtain ⟨p, hp, hwf, hpx, hdeg, -, hline, -⟩ := C30_pline (S := S) (y := Y) (extrap := s.extrap) hinv hS hfk.inc h2' (by simp [hY])
  rw [hp] at hpl
  cases hpl
  have hpoly : IsPolyline xk' p.call := lineThrough_isPolyline hline
  have hknot : ∀ k < xk'.length, p.call (xk'.getD k 0) = fun i => yk i k := by
    intro k hk
    rcases Nat.lt_or_ge (k + 1) xk'.length with hk1 | hk1
    · rw [hline k hk1 _ le_rfl (Spl.width_pos hfk.inc hk1 |> sub_pos.mp).le, lineThrough, sub_self, zero_div, zero_smul, add_zero, hYk k hk]
    · obtain ⟨j, rfl⟩ : ∃ j, k = j + 1 := ⟨k - 1, by omega⟩
      have hw := Spl.width_pos hfk.inc (show j + 1 < xk'.length by omega)
      unfold Spl.width at hw
      rw [hline j hk _ (sub_pos.mp hw).le le_rfl, lineThrough, div_self hw.ne', one_smul, add_sub_cancel, hYk _ hk]
  have hmem : ∀ t < x.length, x.getD t 0 ∈ x := by
    intro t ht; rw [List.getD_eq_getElem _ _ ht]; exact List.getElem_mem _
  have hne : xk ≠ [] := by intro h0; rw [h0] at h2; simp at h2
  have hr : ∀ t < x.length, xk'.getD 0 0 ≤ x.getD t 0 ∧ x.getD t 0 ≤ xk'.getD (xk'.length - 1) 0 :=
    fun t ht => fitKnots_range hfk hne hx (hmem t ht)
  have hlov : ∀ l, lo = [l] → ∀ i, yk i 0 = l i := by
    intro l hl i
    have := hyk i
    rw [e1, hl] at this
    exact (plfitter_nonper hH h2' this).1 _ rfl
  have hhiv : ∀ l, hi = [l] → ∀ i, yk i (xk'.length - 1) = l i := by
    intro l hl i
    have := hyk i
    rw [e2, hl] at this
    exact (plfitter_nonper hH h2' this).2.1 _ rfl
  have hpl0 : ∀ l, lo = [l] → p.call (xk.getD 0 0) = l := by
    intro l hl
    rw [← hlo0 (by rw [hl]; simp), hknot 0 (by omega)]
    funext i; exact hlov l hl i
  have hplh : ∀ l, hi = [l] → p.call (xk.getD (xk.length - 1) 0) = l := by
    intro l hl
    rw [← hhi0 (by rw [hl]; simp), hknot _ (by omega)]
    funext i; exact hhiv l hl i
  refine ⟨p, xk', rfl, hfk, hwf, hpx, hdeg, hpoly, hpl0, hplh, fun g hg hg0 hgl => ?_⟩
  have key : chi2 x y (sigy.getD (y.map fun _ _ => 1)) g = chi2 x y (sigy.getD (y.map fun _ _ => 1)) p.call +
      ∑ t ∈ range x.length, ∑ i, ((g (x.getD t 0) i - p.call (x.getD t 0) i) /
        (sigy.getD (y.map fun _ _ => 1)).getD t 0 i) ^ 2 := by
    refine chi2_identity hpoly hg hfk.inc h2' hr ?_
    intro i w q hw hq
    obtain rfl : w = _ := funext hw
    obtain rfl : q = _ := funext hq
    have hcomp := (plfitter_nonper hH h2' (hyk i)).2.2 (fun k => g (xk'.getD k 0) i - p.call (xk'.getD k 0) i) (fun h0 => by
      have hlne : lo ≠ [] := by intro hc; rw [e1, hc] at h0; simp at h0
      obtain ⟨l, hl⟩ : ∃ l, lo = [l] := by
        rw [e1] at hl1
        exact List.length_eq_one_iff.mp (by have := List.length_pos_iff.mpr hlne; omega)
      rw [hlo0 hlne, hg0 l hl, hpl0 l hl, sub_self]) (fun h0 => by
      have hlne : hi ≠ [] := by intro hc; rw [e2, hc] at h0; simp at h0
      obtain ⟨l, hl⟩ : ∃ l, hi = [l] := by
        rw [e2] at hh1
        exact List.length_eq_one_iff.mp (by have := List.length_pos_iff.mpr hlne; omega)
      rw [hhi0 hlne, hgl l hl, hplh l hl, sub_self])
    have hkv : ∀ k < xk'.length, yk i k = p.call (xk'.getD k 0) i := fun k hk => (congrFun (hknot k hk) i).symm
    refine Eq.trans ?_ hcomp
    refine congrArg₂ HAdd.hAdd (sum_congr rfl fun k hk => ?_) (sum_congr rfl fun k hk => ?_)
    · rw [hkv k (mem_range.mp hk)]
    · have := mem_range.mp hk
      rw [hkv k (by omega), hkv (k + 1) (by omega)]
  refine ⟨key, ?_⟩
  rw [key]
  exact le_add_of_nonneg_right (sum_nonneg fun t _ => sum_nonneg fun i _ => sq_nonneg _)

end Npplus
