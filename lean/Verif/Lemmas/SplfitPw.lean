import Verif.Lemmas.SplfitSol

/-! Helper lemmas for `splfit`: from the scaled unknowns to the pieces and the data. -/

set_option linter.unusedSectionVars false

namespace Npplus
open Spec Finset

variable {K : Type} [Field K] [LinearOrder K] [IsStrictOrderedRing K] {m : ℕ}

namespace Fit

variable {n nc nk1 N : ℕ} {dx : ℕ → K} {ix : ℕ → ℕ} {x y w : ℕ → K} {xk : List K} {z : Fin m → ℕ → K} {nlo : ℕ}

/-- The normal equations in terms of the data. -/
theorem data_form (hix : ∀ t < N, ix t < nk1) (c dc : ℕ → ℕ → K) :
    ∑ j ∈ range nk1, ∑ q ∈ range (n + 1), dc j q *
        (∑ q' ∈ range (n + 1), xpOf N ix x w j (q + q') * c j q' - byOf N ix x y w j q) =
      ∑ t ∈ range N, w t * (∑ q ∈ range (n + 1), x t ^ q * dc (ix t) q) * (∑ q ∈ range (n + 1), x t ^ q * c (ix t) q - y t) := by
  have e1 : ∀ t ∈ range N, w t * (∑ q ∈ range (n + 1), x t ^ q * dc (ix t) q) * (∑ q ∈ range (n + 1), x t ^ q * c (ix t) q - y t) =
      ∑ q ∈ range (n + 1), (∑ q' ∈ range (n + 1), w t * x t ^ (q + q') * (dc (ix t) q * c (ix t) q') - w t * x t ^ q * y t * dc (ix t) q) := by
    intro t _
    rw [mul_assoc, sum_mul, mul_sum]
    refine sum_congr rfl fun q _ => ?_
    rw [mul_sub, mul_sum, mul_sub, mul_sum]
    refine congrArg₂ _ (sum_congr rfl fun q' _ => ?_) ?_
    · rw [pow_add]; ring
    · ring
  rw [sum_congr rfl e1, sum_comm, sum_comm (s := range N)]
  refine sum_congr rfl fun q _ => ?_
  rw [sum_sub_distrib, sum_comm (s := range N)]
  simp only [mul_sub, sum_sub_distrib]
  refine congrArg₂ _ ?_ ?_
  · simp only [mul_sum]
    rw [sum_comm]
    refine sum_congr rfl fun q' _ => ?_
    rw [← sum_bincount hix (fun t => w t * x t ^ (q + q')) (fun j => dc j q * c j q')]
    refine sum_congr rfl fun j _ => ?_
    unfold xpOf
    ring
  · rw [← sum_bincount hix (fun t => w t * x t ^ q * y t) (fun j => dc j q)]
    refine sum_congr rfl fun j _ => ?_
    unfold byOf
    ring

/-- The change of the sum of squares. -/
theorem square_form (v d : ℕ → K) :
    ∑ t ∈ range N, w t * (v t + d t - y t) ^ 2 = ∑ t ∈ range N, w t * (v t - y t) ^ 2 +
      2 * ∑ t ∈ range N, w t * d t * (v t - y t) + ∑ t ∈ range N, w t * d t ^ 2 := by
  rw [mul_sum, ← sum_add_distrib, ← sum_add_distrib]
  exact sum_congr rfl fun t _ => by ring

theorem splInner_length (j : ℕ) : (splInner n nc nlo dx z j).length = n + 1 := by simp [splInner]

theorem splInner_getD (j : ℕ) {q : ℕ} (hq : q < n + 1) :
    (splInner n nc nlo dx z j).getD q 0 = fun i => z i (nlo + (j * (n + 2 + nc) + q)) / dx j ^ q := by
  rw [List.getD_eq_getElem _ _ (by rw [splInner_length]; exact hq)]
  simp [splInner]

/-- A polynomial in scaled variables. -/
theorem polyVal_scaled {C : List (Fin m → K)} (hC : C.length = n + 1) (i : Fin m) {d : K} (hd : d ≠ 0) (t : K) :
    polyVal C t i = ∑ q ∈ range (n + 1), (t * (1 / d)) ^ q * (d ^ q * C.getD q 0 i) := by
  unfold polyVal
  rw [hC, Finset.sum_apply]
  refine sum_congr rfl fun q _ => ?_
  rw [Pi.smul_apply, smul_eq_mul, mul_pow, ← mul_assoc, mul_assoc (t ^ q), ← mul_pow, one_div_mul_cancel hd, one_pow, mul_one]

/-- A Taylor coefficient at the right end in scaled variables. -/
theorem taylor_scaled {C : List (Fin m → K)} (hC : C.length = n + 1) (i : Fin m) (d : K) (k : ℕ) :
    d ^ k * taylorCoeff C d k i = ∑ q ∈ range (n + 1), (q.choose k : K) * (d ^ q * C.getD q 0 i) := by
  unfold taylorCoeff
  rw [hC, Finset.sum_apply, mul_sum]
  refine sum_congr rfl fun q _ => ?_
  rw [Pi.smul_apply, smul_eq_mul]
  rcases Nat.lt_or_ge q k with h | h
  · rw [Nat.choose_eq_zero_of_lt h]; simp
  · obtain ⟨t, ht⟩ : ∃ t, q = k + t := ⟨q - k, by omega⟩
    rw [ht, Nat.add_sub_cancel_left, pow_add]; ring

variable {e : ℕ × ℕ}

theorem splAssemble_clen (hx : 2 ≤ xk.length) : (splAssemble n nc nlo xk z).c.length = xk.length + 1 := by
  simp [splAssemble]; omega

theorem splAssemble_inner {j : ℕ} (hj : j + 1 < xk.length) :
    piece (splAssemble n nc nlo xk z) (j + 1) = splInner n nc nlo (Spl.width xk) z j := by
  unfold piece splAssemble
  simp only
  rw [List.getD_append _ _ _ _ (by simp; omega), List.getD_append_right _ _ _ _ (by simp)]
  rw [List.getD_eq_getElem _ _ (by simp; omega)]
  simp

theorem splAssemble_zero : piece (splAssemble n nc nlo xk z) 0 = splInner n nc nlo (Spl.width xk) z 0 := rfl

theorem splAssemble_last (hn : 1 ≤ n) (hx : 2 ≤ xk.length) :
    piece (splAssemble n nc nlo xk z) xk.length =
      tcList (splInner n nc nlo (Spl.width xk) z (xk.length - 2)) (Spl.width xk (xk.length - 2)) n := by
  unfold piece splAssemble
  simp only
  rw [List.getD_append_right _ _ _ _ (by simp; omega), show xk.length - 1 - 1 = xk.length - 2 by omega,
    polyddx_eq _ _ _ (Or.inl (by rw [splInner_length]; omega))]
  have : xk.length - ([splInner n nc nlo (Spl.width xk) z 0] ++ List.map (splInner n nc nlo (Spl.width xk) z) (List.range (xk.length - 1))).length = 0 := by
    simp; omega
  rw [this]; rfl

theorem splAssemble_WF (hn : 1 ≤ n) (hs : xk.Pairwise (· < ·)) (hx : 2 ≤ xk.length) : WF (splAssemble n nc nlo xk z) := by
  refine ⟨by rintro h; change xk = [] at h; subst h; simp at hx, hs, splAssemble_clen hx, by simp [splAssemble], ?_⟩
  intro l hl
  simp only [splAssemble, List.mem_append, List.mem_singleton, List.mem_map] at hl
  rcases hl with (rfl | ⟨j, _, rfl⟩) | rfl
  · exact splInner_length ..
  · exact splInner_length ..
  · rw [polyddx_eq _ _ _ (Or.inl (by rw [splInner_length]; omega)), length_tcList]; rfl

/-- The result as a piecewise polynomial function. -/
theorem splTrunc_pieces (hn : 1 ≤ n) (hx : 2 ≤ xk.length) :
    (piece (Spl.truncEnds e (splAssemble n nc nlo xk z)) 0 = Spl.trunc e.1 (splInner n nc nlo (Spl.width xk) z 0)) ∧
    (∀ j, j + 1 < xk.length → piece (Spl.truncEnds e (splAssemble n nc nlo xk z)) (j + 1) = splInner n nc nlo (Spl.width xk) z j) ∧
    piece (Spl.truncEnds e (splAssemble n nc nlo xk z)) xk.length =
      Spl.trunc e.2 (tcList (splInner n nc nlo (Spl.width xk) z (xk.length - 2)) (Spl.width xk (xk.length - 2)) n) := by
  have h := splAssemble_clen (n := n) (nc := nc) (nlo := nlo) (z := z) hx
  refine ⟨?_, fun j hj => ?_, ?_⟩
  · rw [Spl.truncEnds_piece _ (by omega), if_neg (by omega), if_pos rfl, splAssemble_zero]; rfl
  · rw [Spl.truncEnds_piece _ (by omega), if_neg (by omega), if_neg (by omega), splAssemble_inner hj]; rfl
  · rw [Spl.truncEnds_piece _ (by omega), if_pos (by omega), if_neg (by omega), splAssemble_last hn hx]; rfl

/-- The values of a PwPoly between its knots, as a piecewise polynomial function; the first knot needs the value of the
first piece there. -/
theorem isPwOn_call {V : Type} [AddCommGroup V] [Module K V] {p : PwPoly K V} (hp : WF p)
    (h0 : (piece p 0).getD 0 0 = (piece p 1).getD 0 0) : IsPwOn p.xk (p.n - 1) (fun j => piece p (j + 1)) p.call := by
  intro j hj
  refine ⟨by rw [hp.piece_length (by omega)]; have := hp.pos; omega, fun t ht ht1 => ?_⟩
  rw [PwPoly.call_eq hp]
  rcases ht with ht | ⟨rfl, rfl⟩
  · have : InPiece p.xk (j + 1) t := by
      refine ⟨by omega, fun i hi hij => ?_, fun i hi hij => ?_⟩
      · rw [List.getD_eq_getElem _ _ (by omega)] at ht
        rcases Nat.eq_or_lt_of_le (show i ≤ j by omega) with rfl | h
        · exact ht
        · exact (List.pairwise_iff_getElem.mp hp.inc i j hi (by omega) h).trans ht
      · rw [List.getD_eq_getElem _ _ hj] at ht1
        rcases Nat.eq_or_lt_of_le hij with rfl | h
        · exact ht1
        · exact ht1.trans (List.pairwise_iff_getElem.mp hp.inc (j + 1) i hj hi h).le
    rw [this.eq_searchsorted]
    rfl
  · have : searchsorted p.xk (p.xk.getD 0 0) = 0 := searchsorted_eq_zero fun a ha => first_le hp.inc ha
    rw [this]
    unfold pieceVal origin
    rw [Nat.zero_sub, sub_self, polyVal_at_zero, polyVal_at_zero, h0]

/-- The value of a piecewise polynomial function at a data point. -/
theorem isPwOn_at {V : Type} [AddCommGroup V] [Module K V] {C : ℕ → List V} {g : K → V} (hg : IsPwOn xk n C g)
    (hs : xk.Pairwise (· < ·)) (h2 : 2 ≤ xk.length) {t : K} (h0 : xk.getD 0 0 ≤ t) (h1 : t ≤ xk.getD (xk.length - 1) 0) :
    g t = polyVal (C (index xk t)) (t - xk.getD (index xk t) 0) := by
  obtain ⟨a, b, c, d⟩ := index_spec hs h2 h0 h1
  refine (hg _ a).2 t ?_ c
  rcases b.lt_or_eq with hb | hb
  · exact Or.inl hb
  · refine Or.inr ⟨d hb, ?_⟩
    rw [← d hb]; exact hb

end Fit
end Npplus
