import Verif.Lemmas.Spline
import Verif.Props.PwInit
import Verif.Spec.Spline

/-! # From solutions of the spline system to piecewise polynomials -/

set_option linter.unusedSectionVars false

namespace Npplus

open Spec Finset PwPoly

variable {K : Type} [Field K] [LinearOrder K] [IsStrictOrderedRing K] {V : Type} [AddCommGroup V] [Module K V]

namespace Spl

theorem inner_length (n : ℕ) (x : List K) (y : List V) (z : ℕ → V) (j : ℕ) : (inner n x y z j).length = n + 1 := by
  simp [inner]

theorem inner_getD_zero (n : ℕ) (x : List K) (y : List V) (z : ℕ → V) (j : ℕ) :
    (inner n x y z j).getD 0 0 = y.getD j 0 := rfl

theorem inner_getD_succ {n : ℕ} (x : List K) (y : List V) (z : ℕ → V) (j : ℕ) {q : ℕ} (hq : q < n) :
    (inner n x y z j).getD (q + 1) 0 = (1 / width x j ^ (q + 1)) • z (j * n + q) := by
  simp [inner, hq]

/-- Taylor coefficients at the right end of interval `j`. -/
theorem inner_taylor {n : ℕ} (x : List K) (y : List V) (z : ℕ → V) (j m : ℕ) (hw : width x j ≠ 0) :
    width x j ^ m • taylorCoeff (inner n x y z j) (width x j) m =
      (if m = 0 then y.getD j 0 else 0) + ∑ q ∈ range n, ((q + 1).choose m : K) • z (j * n + q) := by
  unfold taylorCoeff
  rw [inner_length, sum_range_succ', add_comm, smul_add, smul_sum]
  congr 1
  · rw [inner_getD_zero]
    cases m <;> simp
  · refine sum_congr rfl fun q hq => ?_
    rw [mem_range] at hq
    rw [inner_getD_succ x y z j hq, smul_smul, smul_smul]
    congr 1
    rcases Nat.lt_or_ge (q + 1) m with h | h
    · rw [Nat.choose_eq_zero_of_lt h]; simp
    · obtain ⟨t, ht⟩ : ∃ t, q + 1 = m + t := ⟨q + 1 - m, by omega⟩
      rw [ht, Nat.add_sub_cancel_left, pow_add]
      field_simp

theorem trunc_length (e : ℕ) (l : List V) : (trunc e l).length = l.length := by simp [trunc]

theorem trunc_getD (e : ℕ) (l : List V) (k : ℕ) : (trunc e l).getD k 0 = if k ≤ e then l.getD k 0 else 0 := by
  simp only [trunc, List.getD_eq_getElem?_getD, List.getElem?_mapIdx]
  cases h : l[k]? with
  | none => simp
  | some v =>
    simp only [Option.map_some, Option.getD_some]
    split_ifs <;> first | rfl | omega

variable {n : ℕ} {x : List K} {y : List V} {z : ℕ → V} {e : ℕ × ℕ}

theorem width_ne (hs : x.Pairwise (· < ·)) {j : ℕ} (hj : j + 1 < x.length) : width x j ≠ 0 := by
  unfold width
  rw [List.getD_eq_getElem _ _ hj, List.getD_eq_getElem _ _ (by omega)]
  exact (sub_pos.mpr (List.pairwise_iff_getElem.mp hs j (j + 1) (by omega) hj (by omega))).ne'

theorem width_pos (hs : x.Pairwise (· < ·)) {j : ℕ} (hj : j + 1 < x.length) : 0 < width x j := by
  unfold width
  rw [List.getD_eq_getElem _ _ hj, List.getD_eq_getElem _ _ (by omega)]
  exact (sub_pos.mpr (List.pairwise_iff_getElem.mp hs j (j + 1) (by omega) hj (by omega)))

/-- The last piece is the last interval re-expanded at the last knot. -/
theorem assemble_last (hn : 1 ≤ n) (hx : 2 ≤ x.length) :
    piece (assemble n x y z) x.length = tcList (inner n x y z (x.length - 2)) (width x (x.length - 2)) n := by
  unfold piece assemble
  simp only
  rw [List.getD_append_right _ _ _ _ (by simp; omega), show x.length - 1 - 1 = x.length - 2 by omega,
    polyddx_eq _ _ _ (Or.inl (by rw [inner_length]; omega))]
  have : x.length - ([inner n x y z 0] ++ List.map (inner n x y z) (List.range (x.length - 1))).length = 0 := by
    simp; omega
  rw [this]; rfl

theorem assemble_inner {j : ℕ} (hj : j + 1 < x.length) :
    piece (assemble n x y z) (j + 1) = inner n x y z j := by
  unfold piece assemble
  simp only
  rw [List.getD_append _ _ _ _ (by simp; omega), List.getD_append_right _ _ _ _ (by simp)]
  rw [List.getD_eq_getElem _ _ (by simp; omega)]
  simp

theorem assemble_zero : piece (assemble n x y z) 0 = inner n x y z 0 := rfl

theorem assemble_clen (hx : 2 ≤ x.length) : (assemble n x y z).c.length = x.length + 1 := by
  simp [assemble]; omega

theorem truncEnds_piece (p : PwPoly K V) {i : ℕ} (h : i < p.c.length) : piece (truncEnds e p) i =
    (if p.c.length - 1 = i then trunc e.2 else id) ((if 0 = i then trunc e.1 else id) (piece p i)) := by
  unfold piece truncEnds
  simp only [List.getD_eq_getElem?_getD, List.getElem?_modify, List.getElem?_eq_getElem h]
  split_ifs <;> simp

theorem truncEnds_zero (hx : 2 ≤ x.length) :
    piece (truncEnds e (assemble n x y z)) 0 = trunc e.1 (inner n x y z 0) := by
  have h := assemble_clen (n := n) (y := y) (z := z) hx
  rw [truncEnds_piece _ (by omega), if_neg (by omega), if_pos rfl, assemble_zero]; rfl

theorem truncEnds_inner {j : ℕ} (hj : j + 1 < x.length) :
    piece (truncEnds e (assemble n x y z)) (j + 1) = inner n x y z j := by
  have h := assemble_clen (n := n) (y := y) (z := z) (x := x) (by omega)
  rw [truncEnds_piece _ (by omega), if_neg (by omega), if_neg (by omega), assemble_inner hj]; rfl

theorem truncEnds_last (hn : 1 ≤ n) (hx : 2 ≤ x.length) :
    piece (truncEnds e (assemble n x y z)) x.length =
      trunc e.2 (tcList (inner n x y z (x.length - 2)) (width x (x.length - 2)) n) := by
  have h := assemble_clen (n := n) (y := y) (z := z) (x := x) (by omega)
  rw [truncEnds_piece _ (by omega), if_pos (by omega), if_neg (by omega), assemble_last hn hx]; rfl

theorem assemble_WF (hn : 1 ≤ n) (hs : x.Pairwise (· < ·)) (hx : 2 ≤ x.length) : WF (assemble n x y z) := by
  refine ⟨by rintro h; change x = [] at h; subst h; simp at hx, hs, assemble_clen hx, by simp [assemble], ?_⟩
  intro l hl
  simp only [assemble, List.mem_append, List.mem_singleton, List.mem_map] at hl
  rcases hl with (rfl | ⟨j, _, rfl⟩) | rfl
  · exact inner_length ..
  · exact inner_length ..
  · rw [polyddx_eq _ _ _ (Or.inl (by rw [inner_length]; omega)), length_tcList]; rfl

theorem truncEnds_WF {p : PwPoly K V} (hp : WF p) : WF (truncEnds e p) := by
  refine ⟨hp.ne, hp.inc, by simp [truncEnds, hp.len], hp.pos, ?_⟩
  intro l hl
  simp only [truncEnds] at hl
  obtain ⟨i, hi⟩ := List.mem_iff_getElem?.mp hl
  rw [List.getElem?_modify, List.getElem?_modify] at hi
  cases hc : p.c[i]? with
  | none => rw [hc] at hi; split_ifs at hi <;> simp at hi
  | some m =>
    have hm := hp.row m (List.mem_of_getElem? hc)
    rw [hc] at hi
    change l.length = p.n
    split_ifs at hi <;> simp at hi <;> subst hi <;> simp [trunc_length, hm]

/-- Right end Taylor coefficients of an interval in terms of the next one. -/
theorem Sys.right_val (h : Sys n x y z) (hs : x.Pairwise (· < ·)) {j : ℕ} (hj : j + 1 < x.length) :
    taylorCoeff (inner n x y z j) (width x j) 0 = y.getD (j + 1) 0 := by
  have := inner_taylor (n := n) x y z j 0 (width_ne hs hj)
  rw [pow_zero, one_smul, if_pos rfl] at this
  rw [this]
  simp only [Nat.choose_zero_right, Nat.cast_one, one_smul]
  rw [h.val j (by omega)]; abel

theorem Sys.right_cont (h : Sys n x y z) (hs : x.Pairwise (· < ·)) {j : ℕ} (hj : j + 2 < x.length) {m : ℕ}
    (hm : 1 ≤ m) (hmn : m < n) :
    taylorCoeff (inner n x y z j) (width x j) m = (inner n x y z (j + 1)).getD m 0 := by
  have hw := width_ne hs (show j + 1 < x.length by omega)
  have hw' := width_ne hs (show j + 1 + 1 < x.length by omega)
  have h1 := inner_taylor (n := n) x y z j m hw
  rw [if_neg (by omega), zero_add, h.cont j (by omega) m hm hmn] at h1
  obtain ⟨q, rfl⟩ : ∃ q, m = q + 1 := ⟨m - 1, by omega⟩
  rw [inner_getD_succ x y z (j + 1) (by omega)]
  have hp : width x j ^ (q + 1) ≠ 0 := pow_ne_zero _ hw
  have h2 := congrArg (fun v => (width x j ^ (q + 1))⁻¹ • v) h1
  simp only [smul_smul, inv_mul_cancel₀ hp, one_smul] at h2
  rw [h2, Nat.add_sub_cancel]
  congr 1
  rw [div_pow]; field_simp

theorem width_eq (hx : 2 ≤ x.length) {j : ℕ} : x.getD (j + 1) 0 - x.getD j 0 = width x j := rfl

/-- The Taylor coefficients at the left end of interval `j`: piece `j+1` at its origin. -/
theorem pieceDeriv_origin (p : PwPoly K V) (i k : ℕ) :
    pieceDeriv p i (origin p.xk i) k = (Nat.factorial k : K) • (piece p i).getD k 0 := by
  unfold pieceDeriv
  rw [sub_self, polyDeriv_eq, taylorCoeff_at_zero]

/-! ### degree 1 -/

theorem list_ext_getD {α : Type} {l m : List α} (d : α) (h : l.length = m.length)
    (h2 : ∀ i < l.length, l.getD i d = m.getD i d) : l = m := by
  apply List.ext_getElem h
  intro i h1 h3
  have := h2 i h1
  rwa [List.getD_eq_getElem _ _ h1, List.getD_eq_getElem _ _ h3] at this

/-- The solution for degree 1: the increments. -/
def zlin (y : List V) (j : ℕ) : V := y.getD (j + 1) 0 - y.getD j 0

theorem zlin_sys : Sys 1 x y (zlin y) :=
  ⟨fun j _ => by simp [zlin], fun j _ m h1 h2 => by omega⟩

theorem linear_eq {p : PwPoly K V} (hx : 2 ≤ x.length) (hxk : p.xk = x) (hn : p.n = 2)
    (hc : p.c.length = x.length + 1)
    (hp : ∀ j, j + 1 < x.length → piece p (j + 1) = inner 1 x y (zlin y) j) :
    linear e p = truncEnds e (assemble 1 x y (zlin y)) := by
  have hA := assemble_clen (n := 1) (y := y) (z := zlin y) hx
  have h1 : p.c.getD 1 [] = inner 1 x y (zlin y) 0 := hp 0 (by omega)
  have h2 : (linear e p).c = (truncEnds e (assemble 1 x y (zlin y))).c := by
    apply list_ext_getD []
    · simp [linear, truncEnds, hA, hc]
    · intro i hi
      have hi' : i < x.length + 1 := by simpa [linear, hc] using hi
      change _ = piece (truncEnds e (assemble 1 x y (zlin y))) i
      simp only [linear, List.length_set, hc, hxk, hn]
      rcases Nat.eq_zero_or_pos i with h0 | h0
      · subst h0
        rw [truncEnds_zero hx, List.getD_eq_getElem?_getD, List.getElem?_set_ne (by omega),
          List.getElem?_set_self (by omega), h1]
        rfl
      · obtain ⟨j, rfl⟩ : ∃ j, i = j + 1 := ⟨i - 1, by omega⟩
        rcases Nat.lt_or_ge (j + 1) x.length with hj | hj
        · rw [truncEnds_inner hj, List.getD_eq_getElem?_getD, List.getElem?_set_ne (by omega),
            List.getElem?_set_ne (by omega), ← List.getD_eq_getElem?_getD]
          exact hp j hj
        · have hjx : j + 1 = x.length := by omega
          rw [hjx, truncEnds_last (by omega) hx, List.getD_eq_getElem?_getD,
            Nat.add_sub_cancel, List.getElem?_set_self (by simp [hc])]
          simp only [Option.getD_some]
          have h3 : (p.c.set 0 (trunc e.1 (p.c.getD 1 []))).getD (x.length - 1) [] =
              inner 1 x y (zlin y) (x.length - 2) := by
            rw [List.getD_eq_getElem?_getD, List.getElem?_set_ne (by omega), ← List.getD_eq_getElem?_getD]
            have := hp (x.length - 2) (by omega)
            rwa [show x.length - 2 + 1 = x.length - 1 by omega] at this
          rw [h3, polyddx_eq _ _ _ (Or.inl (by rw [inner_length]))]
          unfold width
          rw [show x.length - 2 + 1 = x.length - 1 by omega]
  have h3 : (linear e p).xk = x := hxk
  have h4 : (linear e p).n = 2 := hn
  cases hl : linear e p
  cases ht : truncEnds e (assemble 1 x y (zlin y))
  rw [hl] at h2 h3 h4
  rw [ht] at h2
  have h5 : (truncEnds e (assemble 1 x y (zlin y))).xk = x := rfl
  have h6 : (truncEnds e (assemble 1 x y (zlin y))).n = 2 := rfl
  rw [ht] at h5 h6
  simp only at h2 h3 h4 h5 h6
  subst h2 h3 h4 h6
  rw [← h5]

theorem init_lin_inner {inv : InvFun K} (hinv : InvOK inv) (hs : x.Pairwise (· < ·)) (hx : 2 ≤ x.length)
    {j : ℕ} (hj : j + 1 < x.length) :
    piece (initPieces inv x [y] none) (j + 1) = inner 1 x y (zlin y) j := by
  have hwf := initPieces_WF hinv hs hx [y] (by simp) none
  have h1 := (initPieces_knot hinv hs hx [y] (by simp) none j (by omega) 0 (by simp)).2
  have h2 := (initPieces_knot hinv hs hx [y] (by simp) none (j + 1) hj 0 (by simp)).1
  have hxk : (initPieces inv x [y] none).xk = x := rfl
  have hlen : (piece (initPieces inv x [y] none) (j + 1)).length = 2 := hwf.piece_length (by rw [hxk]; omega)
  unfold pieceDeriv at h1 h2
  rw [hxk] at h1 h2
  have ho : origin x (j + 1) = x.getD j 0 := by simp [origin]
  rw [ho, sub_self] at h1
  rw [ho] at h2
  obtain ⟨a, b, hab⟩ := List.length_eq_two.mp hlen
  rw [hab] at h1 h2 ⊢
  rw [polyDeriv_zero] at h1 h2
  simp only [polyVal_cons, polyVal_at_zero] at h1 h2
  simp [polyVal] at h1 h2
  change [a, b] = [y.getD j 0, (1 / width x j ^ (0 + 1)) • zlin y (j * 1 + 0)]
  have hw := width_ne hs hj
  have hb : a + width x j • b = y.getD (j + 1) 0 := by
    rw [List.getD_eq_getElem?_getD, ← h2]; simp [width]
  rw [List.getD_eq_getElem?_getD, ← h1]
  simp only [mul_one, add_zero, zlin, zero_add, pow_one]
  rw [← hb, List.getD_eq_getElem?_getD, ← h1, add_sub_cancel_left, smul_smul, one_div, inv_mul_cancel₀ hw, one_smul]

/-! ### the nonperiodic spline -/

theorem bcCount_eq (l : List (Option V)) : bcCount l = nspec l := by
  simp [bcCount, nspec, List.countP_eq_length_filter]

theorem bcItem_pad (l : List (Option V)) (m q : ℕ) : bcItem (l ++ List.replicate m none) q = bcItem l q := by
  unfold bcItem
  rcases Nat.lt_or_ge q l.length with h | h
  · rw [List.getD_append _ _ _ _ h]
  · rw [List.getD_append_right _ _ _ _ h, List.getD_eq_default l none h]
    simp only [List.getD_eq_getElem?_getD, List.getElem?_replicate]
    split_ifs <;> rfl

theorem nspec_pad (l : List (Option V)) (m : ℕ) : nspec (l ++ List.replicate m none) = nspec l := by
  unfold nspec
  rw [List.countP_append]
  simp [List.countP_replicate]

theorem nspec_le (l : List (Option V)) : nspec l ≤ l.length := List.countP_le_length

/-- Completion succeeds and is the documented one. -/
theorem fillBC_ok {lo hi : List (Option V)} (hlo : lo.length ≤ n - 1) (hhi : hi.length ≤ n - 1)
    (h : nspec lo + nspec hi ≤ n - 1) :
    ∃ lo' hi' nlo, fillBC n lo hi = .ok (lo', hi', nlo) ∧ nlo = nspec lo' ∧ lo'.length = n - 1 ∧
      Completed n lo hi lo' hi' := by
  unfold fillBC
  simp only
  set lo1 := lo ++ List.replicate (n - 1 - lo.length) (none : Option V) with hlo1
  set hi1 := hi ++ List.replicate (n - 1 - hi.length) (none : Option V) with hhi1
  have l1 : lo1.length = n - 1 := by simp [hlo1]; omega
  have l2 : hi1.length = n - 1 := by simp [hhi1]; omega
  have n1 : nspec lo1 = nspec lo := nspec_pad _ _
  have n2 : nspec hi1 = nspec hi := nspec_pad _ _
  by_cases hm : ((n - 1 : ℕ) : ℤ) - ((nspec lo1 + nspec hi : ℕ) : ℤ) = 0
  · rw [if_neg (by push_cast at *; omega)]
    refine ⟨lo1, hi, _, rfl, rfl, l1, ⟨?_, l1.le, hhi, fun q v hq => ?_, fun q v hq => hq, fun q v h1 h2 => ?_,
      fun q v h1 h2 => ?_⟩⟩
    · rw [bcCount_eq, bcCount_eq]; push_cast at hm; omega
    · rw [hlo1, bcItem_pad, hq]
    · rw [hlo1, bcItem_pad, h1] at h2; cases h2
    · rw [h1] at h2; cases h2
  · rw [if_pos hm]
    have a1 := nspec_add_nn lo1
    have a2 := nspec_add_nn hi1
    rw [l1] at a1; rw [l2] at a2
    have a3 := nspec_le lo1
    have a4 := nspec_le hi1
    obtain ⟨lo', hi', nlo', e1, e2, e3, F⟩ := fillLoop_ok (n - 1)
      (((n - 1 : ℕ) : ℤ) - ((nspec lo1 + nspec hi : ℕ) : ℤ)) lo1 hi1 (nspec lo1) l1.ge l2.ge (by
        push_cast at *; omega) (by push_cast at *; omega) rfl
    refine ⟨lo', hi', nlo', e1, e2, by rw [F.len_lo, l1], ⟨?_, by rw [F.len_lo, l1], by rw [F.len_hi, l2],
      fun q v hq => F.keep_lo q v ?_, fun q v hq => F.keep_hi q v ?_, fun q v h1 h2 => ?_, fun q v h1 h2 => ?_⟩⟩
    · rw [bcCount_eq, bcCount_eq]; push_cast at e3; omega
    · rw [← hq]; exact bcItem_pad _ _ _
    · rw [← hq]; exact bcItem_pad _ _ _
    · obtain ⟨b1, b2, b3⟩ := F.new_lo q v ((bcItem_pad _ _ _).trans h1) h2
      exact ⟨b1, b3⟩
    · obtain ⟨b1, b2, b3, b4⟩ := F.new_hi q v ((bcItem_pad _ _ _).trans h1) h2
      exact ⟨b1, b3, b4⟩

theorem fillBC_error {lo hi : List (Option V)} (h : n - 1 < nspec lo + nspec hi) :
    fillBC n lo hi = .error .indexError := by
  unfold fillBC
  simp only [nspec_pad]
  rw [if_pos (by push_cast; omega)]
  exact fillLoop_neg _ _ _ _ _ (by push_cast; omega)

/-- Everything known about a nonperiodic result. -/
theorem nonper_ok {inv : InvFun K} (hinv : InvOK inv) {S : Scipy K} (hS : ScipyOK S) (hs : x.Pairwise (· < ·))
    (hx : 2 ≤ x.length) (hy : y.length = x.length) (hn : 1 ≤ n) {lo hi : List (Option V)}
    (hlo : lo.length ≤ n - 1) (hhi : hi.length ≤ n - 1) {p : PwPoly K V}
    (h : nonper inv S x y n lo hi e = .ok p) :
    ∃ z lo' hi', p = truncEnds e (assemble n x y z) ∧ Sys n x y z ∧ Completed n lo hi lo' hi' ∧
      (∀ q v, bcItem lo' q = some v → z q = width x 0 ^ (q + 1) • v) ∧
      (∀ q v, bcItem hi' q = some v →
        ∑ q' ∈ range n, ((q' + 1).choose (q + 1) : K) • z ((x.length - 2) * n + q') =
          width x (x.length - 2) ^ (q + 1) • v) := by
  unfold nonper at h
  simp only [bind, Except.bind, pure, Except.pure] at h
  by_cases hn2 : n < 2
  · have hn1 : n = 1 := by omega
    subst hn1
    rw [if_pos hn2, init_odd inv hs hx (by simp) (by simpa using hy)] at h
    simp only at h
    cases h
    have e1 : lo = [] := List.length_eq_zero_iff.mp (by omega)
    have e2 : hi = [] := List.length_eq_zero_iff.mp (by omega)
    subst e1 e2
    refine ⟨zlin y, [], [], linear_eq hx rfl rfl (initPieces_length _ _ _ _ hx)
      (fun j hj => init_lin_inner hinv hs hx hj), zlin_sys, ?_, fun q v h => by simp [bcItem] at h,
      fun q v h => by simp [bcItem] at h⟩
    exact ⟨rfl, by simp, by simp, fun q v h => h, fun q v h => h, fun q v h => by simp [bcItem],
      fun q v h => by simp [bcItem]⟩
  · rw [if_neg hn2] at h
    by_cases hc : nspec lo + nspec hi ≤ n - 1
    · obtain ⟨lo', hi', nlo, e1, e2, e3, C⟩ := fillBC_ok hlo hhi hc
      rw [e1] at h
      simp only at h
      have htot := C.total
      rw [bcCount_eq, bcCount_eq] at htot
      have hnlo : 1 + nlo + (n - 1 - nlo) + 1 = n + 1 := by omega
      unfold solveBanded at h
      simp only [ne_eq, not_true_eq_false, if_false] at h
      rw [if_neg (by omega)] at h
      cases hb : S.banded (1 + nlo) (n - 1 - nlo) ((x.length - 1) * n) (system n x y lo' hi' nlo).1
          (system n x y lo' hi' nlo).2 with
      | error err => rw [hb] at h; cases h
      | ok z =>
        rw [hb] at h
        simp only at h
        cases h
        have hz := hS.banded_sound _ _ _ _ _ _ hb
        obtain ⟨s1, s2, s3⟩ := system_spec (by omega) hx e3 C.len_hi e2.symm (by omega) hz
        have conv : ∀ (l : List (Option V)) q v, bcItem l q = some v → l[q]? = some (some v) := by
          intro l q v hq
          unfold bcItem at hq
          rw [List.getD_eq_getElem?_getD] at hq
          cases hl : l[q]? with
          | none => rw [hl] at hq; cases hq
          | some o => rw [hl] at hq; simp at hq; rw [hq]
        refine ⟨z, lo', hi', rfl, s1, C, fun q v hq => s2 q v (conv _ _ _ hq), fun q v hq => ?_⟩
        have := s3 q v (conv _ _ _ hq)
        rwa [show x.length - 1 - 1 = x.length - 2 by omega] at this
    · rw [fillBC_error (by omega)] at h; cases h

end Spl
end Npplus
