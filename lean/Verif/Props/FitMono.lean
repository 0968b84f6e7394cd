import Verif.Props.FitSame

/-!
# C120: a fit with more freedom is never worse; the scale of `sigy` does not matter
-/

set_option linter.unusedSectionVars false

namespace Npplus

open Spec Finset PwPoly Fit

variable {K : Type} [Field K] [LinearOrder K] [IsStrictOrderedRing K] [FloorRing K] {m : ℕ}

namespace MonoAux

variable {V : Type} [AddCommGroup V] [Module K V] {xk xk2 : List K} {n n2 nc nc2 : ℕ} {C : ℕ → List V} {g : K → V}

theorem getD_lt (hs : xk.Pairwise (· < ·)) {i j : ℕ} (hij : i < j) (hj : j < xk.length) : xk.getD i 0 < xk.getD j 0 := by
  rw [List.getD_eq_getElem _ _ (by omega), List.getD_eq_getElem _ _ hj]
  exact List.pairwise_iff_getElem.mp hs _ _ _ _ hij

theorem getD_le (hs : xk.Pairwise (· < ·)) {i j : ℕ} (hij : i ≤ j) (hj : j < xk.length) : xk.getD i 0 ≤ xk.getD j 0 := by
  rcases hij.lt_or_eq with h | h
  · exact (getD_lt hs h hj).le
  · rw [h]

theorem idx_lt (hs : xk.Pairwise (· < ·)) {i j : ℕ} (hi : i < xk.length) (h : xk.getD i 0 < xk.getD j 0) : i < j := by
  by_contra hc
  exact absurd (getD_le hs (Nat.le_of_not_lt hc) hi) (not_le.mpr h)

theorem idx_le (hs : xk.Pairwise (· < ·)) {i j : ℕ} (hi : i < xk.length) (h : xk.getD i 0 ≤ xk.getD j 0) : i ≤ j := by
  by_contra hc
  exact absurd (getD_lt hs (Nat.lt_of_not_le hc) hi) (not_lt.mpr h)

/-- An interval of the finer knots is in one interval of the coarser ones. -/
theorem sub_interval (hs : xk.Pairwise (· < ·)) (hs2 : xk2.Pairwise (· < ·)) (h2 : 2 ≤ xk.length) (hsub : ∀ k ∈ xk, k ∈ xk2)
    (h0 : xk2.getD 0 0 = xk.getD 0 0) (hl : xk2.getD (xk2.length - 1) 0 = xk.getD (xk.length - 1) 0) {j : ℕ} (hj : j + 1 < xk2.length) :
    index xk (xk2.getD (j + 1) 0) + 1 < xk.length ∧ xk.getD (index xk (xk2.getD (j + 1) 0)) 0 ≤ xk2.getD j 0 ∧
      xk2.getD (j + 1) 0 ≤ xk.getD (index xk (xk2.getD (j + 1) 0) + 1) 0 := by
  obtain ⟨a, b, c, d⟩ := index_spec hs h2 (t := xk2.getD (j + 1) 0) (by rw [← h0]; exact getD_le hs2 (by omega) hj)
    (by rw [← hl]; exact getD_le hs2 (by omega) (by omega))
  refine ⟨a, ?_, c⟩
  have hlt : xk.getD (index xk (xk2.getD (j + 1) 0)) 0 < xk2.getD (j + 1) 0 := by
    rcases b.lt_or_eq with h | h
    · exact h
    · rw [d h, ← h0]; exact getD_lt hs2 (by omega) hj
  have hm : xk.getD (index xk (xk2.getD (j + 1) 0)) 0 ∈ xk2 := hsub _ (by
    rw [List.getD_eq_getElem _ _ (by omega)]; exact List.getElem_mem _)
  obtain ⟨i, hi, e⟩ := List.getElem_of_mem hm
  rw [← List.getD_eq_getElem _ 0 hi] at e
  rw [← e] at hlt ⊢
  exact getD_le hs2 (by have := idx_lt hs2 hi hlt; omega) (by omega)

/-- A piecewise polynomial function on some knots is one on more knots, of any higher degree. -/
theorem pw_refine (hs : xk.Pairwise (· < ·)) (hs2 : xk2.Pairwise (· < ·)) (h2 : 2 ≤ xk.length) (hsub : ∀ k ∈ xk, k ∈ xk2)
    (h0 : xk2.getD 0 0 = xk.getD 0 0) (hl : xk2.getD (xk2.length - 1) 0 = xk.getD (xk.length - 1) 0) (hn : n ≤ n2)
    (hg : IsPwOn xk n C g) : ∃ C2, IsPwOn xk2 n2 C2 g ∧ (SmoothTo xk nc C → nc2 ≤ nc → SmoothTo xk2 nc2 C2) ∧
      ∀ lo hi a b, EndValues xk C lo hi → EndValues xk2 C2 (lo.take a) (hi.take b) := by
  have h22 : 2 ≤ xk2.length := by
    by_contra hc
    have e1 : xk2.length - 1 = 0 := by omega
    rw [e1, h0] at hl
    exact absurd hl (getD_lt hs (by omega) (by omega)).ne
  have I := fun {j : ℕ} (hj : j + 1 < xk2.length) => sub_interval hs hs2 h2 hsub h0 hl hj
  set ix : ℕ → ℕ := fun j => index xk (xk2.getD (j + 1) 0) with hix
  have hlen : ∀ j, j + 1 < xk2.length → (C (ix j)).length ≤ n2 + 1 := fun j hj => by
    have := (hg _ (I hj).1).1
    show (C (index xk _)).length ≤ _
    omega
  set C2 : ℕ → List V := fun j => tcList (C (ix j)) (xk2.getD j 0 - xk.getD (ix j) 0) n2 with hC2
  have hT : ∀ j, j + 1 < xk2.length → ∀ t k, taylorCoeff (C2 j) t k = taylorCoeff (C (ix j)) (xk2.getD j 0 - xk.getD (ix j) 0 + t) k :=
    fun j hj t k => taylorCoeff_tcList _ _ _ _ _ (hlen j hj)
  have hL : ∀ j, j + 1 < xk2.length → ∀ k, (C2 j).getD k 0 = taylorCoeff (C (ix j)) (xk2.getD j 0 - xk.getD (ix j) 0) k := by
    intro j hj k
    rw [← taylorCoeff_at_zero (K := K), hT j hj, add_zero]
  have hR : ∀ j, j + 1 < xk2.length → ∀ k, rightCoeff xk2 C2 j k = taylorCoeff (C (ix j)) (xk2.getD (j + 1) 0 - xk.getD (ix j) 0) k := by
    intro j hj k
    unfold rightCoeff
    rw [hT j hj]; congr 1; ring
  have i0 : ix 0 = 0 := by
    have := (I (j := 0) (by omega)).2.1
    rw [h0] at this
    exact Nat.le_zero.mp (idx_le hs (by have := (I (j := 0) (by omega)).1; show index xk _ < _; omega) this)
  have il : ix (xk2.length - 2) = xk.length - 2 := by
    have a := (I (j := xk2.length - 2) (by omega)).1
    have b := (I (j := xk2.length - 2) (by omega)).2.2
    rw [show xk2.length - 2 + 1 = xk2.length - 1 by omega, hl] at b
    have := idx_le hs (by omega) b
    show index xk (xk2.getD (xk2.length - 2 + 1) 0) = _
    rw [show xk2.length - 2 + 1 = xk2.length - 1 by omega, hl] at a ⊢
    omega
  refine ⟨C2, fun j hj => ⟨by simp [hC2, tcList], fun t t1 t2 => ?_⟩, fun hsm hnc j hj k hk => ?_, fun lo hi a b hend => ⟨fun k hk => ?_, fun k hk => ?_⟩⟩
  · obtain ⟨a, b, c⟩ := I hj
    rw [← taylorCoeff_zero (K := K), hT j hj, taylorCoeff_zero, show xk2.getD j 0 - xk.getD (ix j) 0 + (t - xk2.getD j 0) = t - xk.getD (ix j) 0 by ring]
    refine (hg _ a).2 t ?_ (t2.trans c)
    rcases t1 with t1 | ⟨rfl, t1⟩
    · exact .inl (lt_of_le_of_lt b t1)
    · exact .inr ⟨i0, by rw [← h0]; exact t1⟩
  · unfold jump
    rw [hL (j + 1) (by omega), hR j (by omega)]
    obtain ⟨a, b, c⟩ := I (j := j) (by omega)
    obtain ⟨a', b', c'⟩ := I (j := j + 1) (by omega)
    rcases eq_or_ne (ix (j + 1)) (ix j) with e | e
    · rw [e, sub_self]
    · have h3 : ix j ≤ ix (j + 1) := by
        have := lt_of_le_of_lt b (lt_of_lt_of_le (getD_lt hs2 (show j < j + 2 by omega) (by omega)) c')
        have := idx_lt hs (by omega) this
        show index xk _ ≤ index xk _
        omega
      have h4 : xk.getD (ix j + 1) 0 ≤ xk.getD (ix (j + 1)) 0 := getD_le hs (by omega) (by show index xk _ < _; omega)
      have e1 : xk2.getD (j + 1) 0 = xk.getD (ix (j + 1)) 0 := le_antisymm (c.trans h4) b'
      have h5 : ix (j + 1) ≤ ix j + 1 := idx_le hs (by show index xk _ < _; omega) (by rw [← e1]; exact c)
      have e2 : ix (j + 1) = ix j + 1 := by omega
      have := hsm (ix j) (by rw [hix] at e2; have : index xk (xk2.getD (j + 1 + 1) 0) = index xk (xk2.getD (j + 1) 0) + 1 := e2
                             show index xk _ + 2 < _; omega) k (hk.trans hnc)
      unfold jump rightCoeff at this
      rw [e1, e2, sub_self, taylorCoeff_at_zero]
      exact this
  · rw [hL 0 (by omega), i0, h0, sub_self, taylorCoeff_at_zero]
    rw [List.length_take] at hk
    rw [hend.1 k (by omega), List.getD_eq_getElem?_getD, List.getD_eq_getElem?_getD, List.getElem?_take_of_lt (by omega)]
  · rw [List.length_take] at hk
    rw [hR _ (by omega), il, show xk2.length - 2 + 1 = xk2.length - 1 by omega, hl]
    have := hend.2 k (by omega)
    unfold rightCoeff at this
    rw [show xk.length - 2 + 1 = xk.length - 1 by omega] at this
    rw [this, List.getD_eq_getElem?_getD, List.getD_eq_getElem?_getD, List.getElem?_take_of_lt (by omega)]

theorem line_refine (hs : xk.Pairwise (· < ·)) (hs2 : xk2.Pairwise (· < ·)) (h2 : 2 ≤ xk.length) (hsub : ∀ k ∈ xk, k ∈ xk2)
    (h0 : xk2.getD 0 0 = xk.getD 0 0) (hl : xk2.getD (xk2.length - 1) 0 = xk.getD (xk.length - 1) 0)
    (hg : IsPolyline xk g) : IsPolyline xk2 g := by
  intro j hj
  obtain ⟨a, b, c⟩ := sub_interval hs hs2 h2 hsub h0 hl hj
  obtain ⟨u, v, h⟩ := hg _ a
  exact ⟨u, v, fun t t1 t2 => h t (b.trans t1) (t2.trans c)⟩

theorem firstMem {xk : List K} (h : 0 < xk.length) : xk.getD 0 0 ∈ xk := by
  rw [List.getD_eq_getElem _ _ h]; exact List.getElem_mem _

theorem lastMem {xk : List K} (h : 0 < xk.length) : xk.getD (xk.length - 1) 0 ∈ xk := by
  rw [List.getD_eq_getElem _ _ (by omega)]; exact List.getElem_mem _

/-- More knots between the ends of the given ones: the knots of the fits. -/
theorem knots_refine {x xk' xk2' : List K} (hs : xk.Pairwise (· < ·)) (h2 : 2 ≤ xk.length) (hsub : ∀ k ∈ xk, k ∈ xk2)
    (hin : ∀ k ∈ xk2, xk.getD 0 0 ≤ k ∧ k ≤ xk.getD (xk.length - 1) 0) (hk : FitKnots xk x xk') (hk2 : FitKnots xk2 x xk2') :
    2 ≤ xk'.length ∧ (∀ k ∈ xk', k ∈ xk2') ∧ xk2'.getD 0 0 = xk'.getD 0 0 ∧
      xk2'.getD (xk2'.length - 1) 0 = xk'.getD (xk'.length - 1) 0 := by
  have m0 : xk.getD 0 0 ∈ xk := firstMem (by omega)
  have ml : xk.getD (xk.length - 1) 0 ∈ xk := lastMem (by omega)
  have hsub' : ∀ k ∈ xk', k ∈ xk2' := by
    intro k h
    rw [hk2.mem]
    rcases (hk.mem k).mp h with h | ⟨a, b, c⟩ | ⟨a, b, c⟩
    · exact .inl (hsub _ h)
    · exact .inr (.inl ⟨a, b, fun q hq => lt_of_lt_of_le (c _ m0) (hin q hq).1⟩)
    · exact .inr (.inr ⟨a, b, fun q hq => lt_of_le_of_lt (hin q hq).2 (c _ ml)⟩)
  have M0 : xk.getD 0 0 ∈ xk' := (hk.mem _).mpr (.inl m0)
  have Ml : xk.getD (xk.length - 1) 0 ∈ xk' := (hk.mem _).mpr (.inl ml)
  have hlt := getD_lt hs (show 0 < xk.length - 1 by omega) (by omega)
  have h2' : 2 ≤ xk'.length := by
    obtain ⟨i, hi, e1⟩ := List.getElem_of_mem M0
    obtain ⟨j, hj, e2⟩ := List.getElem_of_mem Ml
    by_contra hc
    have e : i = j := by omega
    subst e
    rw [e1] at e2
    exact absurd e2 hlt.ne
  have p2 : 0 < xk2'.length := List.length_pos_of_mem (hsub' _ M0)
  refine ⟨h2', hsub', le_antisymm (first_le hk2.inc (hsub' _ (firstMem (by omega)))) ?_,
    le_antisymm ?_ (le_last hk2.inc (hsub' _ (lastMem (by omega))))⟩
  · rcases (hk2.mem _).mp (firstMem p2) with h | ⟨a, b, c⟩ | ⟨a, b, c⟩
    · exact (first_le hk.inc M0).trans (hin _ h).1
    · exact first_le hk.inc ((hk.mem _).mpr (.inr (.inl ⟨a, b, fun q hq => c q (hsub q hq)⟩)))
    · exact (first_le hk.inc M0).trans (c _ (hsub _ m0)).le
  · rcases (hk2.mem _).mp (lastMem p2) with h | ⟨a, b, c⟩ | ⟨a, b, c⟩
    · exact (hin _ h).2.trans (le_last hk.inc Ml)
    · exact (c _ (hsub _ ml)).le.trans (le_last hk.inc Ml)
    · exact le_last hk.inc ((hk.mem _).mpr (.inr (.inr ⟨a, b, fun q hq => c q (hsub q hq)⟩)))

theorem nc_eq {a : Option ℤ} {n c c' : ℕ} (h : a = none ∧ c + 1 = n ∨ a = some (c : ℤ)) (h' : a = none ∧ c' + 1 = n ∨ a = some (c' : ℤ)) :
    c = c' := by
  rcases h with ⟨a1, b1⟩ | a1 <;> rcases h' with ⟨a2, b2⟩ | a2
  · omega
  · rw [a1] at a2; cases a2
  · rw [a1] at a2; cases a2
  · rw [a1] at a2; simpa using a2

end MonoAux

open MonoAux

variable {inv : InvFun K} {S : Scipy K} {H : SolveH K} {xk xk2 x : List K} {y : List (Fin m → K)} {sigy sigy2 : Option (List (Fin m → K))}
  {n n2 : ℕ} {nc nc2 : Option ℤ} {lo hi : List (Fin m → K)} {extrap extrap2 : Option (ℕ × ℕ)} {p p2 : PwPoly K (Fin m → K)}
  {cost cost2 : Cost K m}

/-- **C120** — more knots between the ends, a higher degree, fewer continuous derivatives, fewer prescribed end values: the
result of `splfit` never fits the same data worse (`c`, `c2`: the numbers of continuous derivatives asked for). -/
theorem C120_splfit (hS : ScipyOK S) (hs : xk.Pairwise (· < ·)) (hs2 : xk2.Pairwise (· < ·)) (h2 : 2 ≤ xk.length)
    (hsig : ∀ l, sigy = some l → ∀ v ∈ l, ∀ i, v i ≠ 0)
    (hsub : ∀ k ∈ xk, k ∈ xk2) (hin : ∀ k ∈ xk2, xk.getD 0 0 ≤ k ∧ k ≤ xk.getD (xk.length - 1) 0) (hn : n ≤ n2)
    {c c2 : ℕ} (hc : nc = none ∧ c + 1 = n ∨ nc = some (c : ℤ)) (hc2 : nc2 = none ∧ c2 + 1 = n2 ∨ nc2 = some (c2 : ℤ)) (hcc : c2 ≤ c)
    {a b : ℕ} (h : splfit S xk x y sigy n nc lo hi false extrap = .ok (.pw p, cost))
    (h' : splfit S xk2 x y sigy n2 nc2 (lo.take a) (hi.take b) false extrap2 = .ok (.pw p2, cost2)) :
    chi2 x y (sigy.getD (y.map fun _ _ => 1)) p2.call ≤ chi2 x y (sigy.getD (y.map fun _ _ => 1)) p.call := by
  obtain ⟨q, xk', d, e, hk, hd, -, -, ⟨C, hC, hsm, hend⟩, -⟩ := C34_minimal hS hs hsig h
  cases e
  obtain ⟨q2, xk2', d2, e2, hk2, hd2, -, -, -, key⟩ := C34_minimal hS hs2 hsig h'
  cases e2
  obtain ⟨k1, k2, k3, k4⟩ := knots_refine hs h2 hsub hin hk hk2
  obtain ⟨C2, g1, g2, g3⟩ := pw_refine (nc := d) (nc2 := d2) hk.inc hk2.inc k1 k2 k3 k4 hn hC
  exact (key C2 _ g1 (g2 hsm (by rw [nc_eq hd hc, nc_eq hd2 hc2]; exact hcc)) (g3 _ _ _ _ hend)).2.1

/-- **C120** — the same for `plfit`. -/
theorem C120_plfit (hinv : InvOK inv) (hS : ScipyOK S) (hH : SolveHOK H) (hs : xk.Pairwise (· < ·)) (hs2 : xk2.Pairwise (· < ·))
    (h2 : 2 ≤ xk.length) (hsig : ∀ l, sigy = some l → ∀ v ∈ l, ∀ i, v i ≠ 0)
    (hsub : ∀ k ∈ xk, k ∈ xk2) (hin : ∀ k ∈ xk2, xk.getD 0 0 ≤ k ∧ k ≤ xk.getD (xk.length - 1) 0)
    {a b : ℕ} (h : plfit inv S H xk x y sigy lo hi false extrap = .ok (.pw p))
    (h' : plfit inv S H xk2 x y sigy (lo.take a) (hi.take b) false extrap2 = .ok (.pw p2)) :
    chi2 x y (sigy.getD (y.map fun _ _ => 1)) p2.call ≤ chi2 x y (sigy.getD (y.map fun _ _ => 1)) p.call := by
  obtain ⟨q, xk', e, hk, -, -, -, hC, hl, hh, -⟩ := C31_plfit hinv hS hH hs hsig h
  cases e
  obtain ⟨q2, xk2', e2, hk2, -, -, -, -, -, -, key⟩ := C31_plfit hinv hS hH hs2 hsig h'
  cases e2
  obtain ⟨k1, k2, k3, k4⟩ := knots_refine hs h2 hsub hin hk hk2
  have m0 : xk.getD 0 0 ∈ xk := firstMem (by omega)
  have ml : xk.getD (xk.length - 1) 0 ∈ xk := lastMem (by omega)
  have p2' : 0 < xk2.length := List.length_pos_of_mem (hsub _ m0)
  have e0 : xk2.getD 0 0 = xk.getD 0 0 := le_antisymm (first_le hs2 (hsub _ m0)) (hin _ (firstMem p2')).1
  have el : xk2.getD (xk2.length - 1) 0 = xk.getD (xk.length - 1) 0 := le_antisymm (hin _ (lastMem p2')).2 (le_last hs2 (hsub _ ml))
  have tk : ∀ (L : List (Fin m → K)) (i : ℕ) (v : Fin m → K), L.length ≤ 1 → L.take i = [v] → L = [v] := by
    intro L i v hL hv
    cases i with
    | zero => simp at hv
    | succ i => rwa [List.take_of_length_le (by omega)] at hv
  obtain ⟨s, -, hset, hl1, hh1, -⟩ := plfit_ok h
  obtain ⟨-, e1, e2, -⟩ := setup_ok hset hs
  rw [e1] at hl1
  rw [e2] at hh1
  refine (key _ (line_refine hk.inc hk2.inc k1 k2 k3 k4 hC) ?_ ?_).2
  · intro l hl'; rw [e0]; exact hl l (tk _ _ _ hl1 hl')
  · intro l hl'; rw [el]; exact hh l (tk _ _ _ hh1 hl')

/-- **C120** — only the ratios of the `sigy` matter: multiplied by a common factor they give the same values at the points,
and chi2 divided by the square of the factor. -/
theorem C120_sigma (hS : ScipyOK S) (hs : xk.Pairwise (· < ·)) {f : K} (hf : f ≠ 0)
    (hsig : ∀ l, sigy = some l → ∀ v ∈ l, ∀ i, v i ≠ 0)
    (hsig2 : sigy2 = some ((sigy.getD (y.map fun _ _ => 1)).map fun v i => f * v i))
    (h : splfit S xk x y sigy n nc lo hi false extrap = .ok (.pw p, cost))
    (h' : splfit S xk x y sigy2 n nc lo hi false extrap2 = .ok (.pw p2, cost2)) :
    (∀ t ∈ x, p2.call t = p.call t) ∧
      chi2 x y (sigy2.getD (y.map fun _ _ => 1)) p2.call = chi2 x y (sigy.getD (y.map fun _ _ => 1)) p.call / f ^ 2 := by
  have hsig2' : ∀ l, sigy2 = some l → ∀ v ∈ l, ∀ i, v i ≠ 0 := by
    rintro l hl v hv i
    rw [hsig2] at hl
    cases hl
    obtain ⟨w, hw, rfl⟩ := List.mem_map.mp hv
    refine mul_ne_zero hf ?_
    cases hsy : sigy with
    | none =>
      rw [hsy] at hw
      obtain ⟨_, -, rfl⟩ := List.mem_map.mp hw
      exact one_ne_zero
    | some l => rw [hsy] at hw; exact hsig l hsy w hw i
  have hchi : ∀ g, chi2 x y (sigy2.getD (y.map fun _ _ => 1)) g = chi2 x y (sigy.getD (y.map fun _ _ => 1)) g / f ^ 2 := by
    intro g
    rw [hsig2, Option.getD_some]
    unfold chi2
    rw [div_eq_mul_inv, Finset.sum_mul]
    refine sum_congr rfl fun t _ => ?_
    rw [Finset.sum_mul]
    refine sum_congr rfl fun i _ => ?_
    have : ((sigy.getD (y.map fun _ _ => 1)).map fun (v : Fin m → K) i => f * v i).getD t 0 i = f * (sigy.getD (y.map fun _ _ => 1)).getD t 0 i := by
      simp only [List.getD_eq_getElem?_getD, List.getElem?_map]
      cases (sigy.getD (y.map fun _ _ => 1))[t]? <;> simp
    rw [this, mul_comm, ← div_div, div_pow, div_eq_mul_inv]
  obtain ⟨q, xk', d, e, hk, hd, -, -, ⟨C, hC, hsm, hend⟩, key⟩ := C34_minimal hS hs hsig h
  cases e
  obtain ⟨q2, xk2', d2, e2, hk2, hd2, -, -, ⟨C2, hC2, hsm2, hend2⟩, key2⟩ := C34_minimal hS hs hsig2' h'
  cases e2
  obtain rfl := hk.unique hk2
  obtain rfl := nc_eq hd hd2
  obtain ⟨-, a1, a2⟩ := key C2 _ hC2 hsm2 hend2
  obtain ⟨-, b1, -⟩ := key2 C _ hC hsm hend
  rw [hchi, hchi] at b1
  have hf2 : 0 < f ^ 2 := by positivity
  have b2 := (div_le_div_iff_of_pos_right hf2).mp b1
  exact ⟨a2 b2, by rw [hchi, le_antisymm b2 a1]⟩

/-- Non-trivial case: a line, a polyline with a knot at 2 and a parabola fitted to the same points; chi2 = 12/5, 34/35, 44/35. -/
example : let r := fun (xk : List ℚ) (n : ℕ) (nc : Option ℤ) => ((splfit (m := 1) (exactScipy ℚ) xk [0, 1, 2, 3, 4]
      [fun _ => 0, fun _ => 1, fun _ => 0, fun _ => 1, fun _ => 3] none n nc).bind fun o =>
      ([(0 : ℚ), 1, 2, 3, 4].mapM fun t => (o.1.at t).map (· 0)).map fun v =>
        (List.zipWith (fun a b => (a - b) ^ 2) v [0, 1, 0, 1, 3]).sum)
    r [0, 4] 1 none = .ok (12/5) ∧ r [0, 2, 4] 1 none = .ok (34/35) ∧ r [0, 4] 2 none = .ok (44/35) := by decide +kernel

end Npplus
