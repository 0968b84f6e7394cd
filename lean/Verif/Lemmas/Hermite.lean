import Verif.Model.PwInit
import Verif.Lemmas.PwArith
import Mathlib.Algebra.Polynomial.Taylor
import Mathlib.Algebra.Polynomial.HasseDeriv
import Mathlib.Algebra.Polynomial.Div
import Mathlib.LinearAlgebra.Matrix.ToLinearEquiv
import Mathlib.Algebra.Polynomial.FieldDivision

/-! Helper lemmas about two-sided interpolation. -/

set_option linter.unusedSectionVars false
namespace Npplus
open Spec PwPoly

variable {K : Type} [Field K] [LinearOrder K] [IsStrictOrderedRing K]
variable {V : Type} [AddCommGroup V] [Module K V]

theorem taylorCoeff_single (N i : ℕ) (hi : i < N) (x : K) (k : ℕ) :
    taylorCoeff ((List.replicate N (0:K)).set i 1) x k = (i.choose k : K) * x ^ (i - k) := by
  unfold taylorCoeff
  rw [Finset.sum_eq_single i]
  · rw [List.getD_eq_getElem _ _ (by simpa using hi)]; simp
  · intro j hj hne
    simp only [List.length_set, List.length_replicate, Finset.mem_range] at hj
    rw [List.getD_eq_getElem _ _ (by simpa using hj), List.getElem_set_ne (by omega)]; simp
  · intro h; simp at h; omega

theorem twoSided_apply (h : ℕ) (k j : Fin (h + 1)) :
    twoSided K h k j = ((h + 1 + j : ℕ).choose k : K) := by
  unfold twoSided
  rw [polyddx_eq _ _ _ (by simp), tcList_getD _ _ _ _ (by omega),
    taylorCoeff_single _ _ (by omega)]
  simp

/-- The matrix of binomials is invertible: a polynomial of degree `≤ 2h+1` with a zero of order `h+1`
at 0 and at 1 vanishes. -/
theorem twoSided_det (h : ℕ) : (twoSided K h).det ≠ 0 := by
  intro hdet
  obtain ⟨v, hv, hMv⟩ := Matrix.exists_mulVec_eq_zero_iff.mpr hdet
  apply hv
  -- the polynomial
  set P : Polynomial K := ∑ j : Fin (h + 1), Polynomial.monomial (h + 1 + j) (v j) with hP
  have hcoeff : ∀ j : Fin (h + 1), P.coeff (h + 1 + j) = v j := by
    intro j
    rw [hP, Polynomial.finset_sum_coeff, Finset.sum_eq_single j]
    · simp
    · intro i _ hij
      rw [Polynomial.coeff_monomial, if_neg]
      intro h'; exact hij (Fin.ext (by omega))
    · simp
  have hdvd0 : Polynomial.X ^ (h + 1) ∣ P := by
    rw [Polynomial.X_pow_dvd_iff]
    intro d hd
    rw [hP, Polynomial.finset_sum_coeff]
    refine Finset.sum_eq_zero fun j _ => ?_
    rw [Polynomial.coeff_monomial, if_neg (by omega)]
  have hdvd1 : (Polynomial.X - Polynomial.C (1:K)) ^ (h + 1) ∣ P := by
    rw [Polynomial.X_sub_C_pow_dvd_iff, Polynomial.X_pow_dvd_iff]
    intro d hd
    have : P.comp (Polynomial.X + Polynomial.C 1) = Polynomial.taylor 1 P := rfl
    rw [this, Polynomial.taylor_coeff, hP, map_sum, Polynomial.eval_finset_sum]
    have := congrFun hMv ⟨d, by omega⟩
    rw [Matrix.mulVec, dotProduct] at this
    rw [Pi.zero_apply] at this
    rw [← this]
    refine Finset.sum_congr rfl fun j _ => ?_
    rw [Polynomial.hasseDeriv_monomial, Polynomial.eval_monomial, twoSided_apply]
    simp
  have hcop : IsCoprime ((Polynomial.X : Polynomial K) ^ (h + 1))
      ((Polynomial.X - Polynomial.C (1:K)) ^ (h + 1)) := by
    apply IsCoprime.pow
    refine ⟨1, -1, ?_⟩
    simp
  have hdvd := hcop.mul_dvd hdvd0 hdvd1
  have hP0 : P = 0 := by
    by_contra hne
    have h1 := Polynomial.degree_le_of_dvd hdvd hne
    rw [Polynomial.degree_mul, Polynomial.degree_pow, Polynomial.degree_pow,
      Polynomial.degree_X, Polynomial.degree_X_sub_C] at h1
    have h2 : P.degree < (2 * h + 2 : ℕ) := by
      rw [hP]
      refine lt_of_le_of_lt (Polynomial.degree_sum_le _ _) ?_
      rw [Finset.sup_lt_iff (by exact WithBot.bot_lt_coe _)]
      intro j _
      refine lt_of_le_of_lt (Polynomial.degree_monomial_le _ _) ?_
      have : h + 1 + (j:ℕ) < 2 * h + 2 := by omega
      exact_mod_cast this
    have h3 := lt_of_le_of_lt h1 h2
    simp only [nsmul_eq_mul, mul_one] at h3
    norm_cast at h3
    omega
  funext j
  rw [← hcoeff j, hP0]; simp

theorem matDot_getD {m : ℕ} (A : Matrix (Fin m) (Fin m) K) (v : List V) (i : Fin m) :
    (matDot A v).getD i 0 = ∑ j, A i j • v.getD j 0 := by
  unfold matDot
  rw [List.getD_eq_getElem _ _ (by simp)]
  simp [Fin.sum_univ_def]

@[simp] theorem length_matDot {m : ℕ} (A : Matrix (Fin m) (Fin m) K) (v : List V) :
    (matDot A v).length = m := by simp [matDot]

theorem taylorCoeff_append (l m : List V) (x : K) (k : ℕ) :
    taylorCoeff (l ++ m) x k = taylorCoeff l x k +
      ∑ j ∈ Finset.range m.length, (((l.length + j).choose k : K) * x ^ (l.length + j - k)) • m.getD j 0 := by
  unfold taylorCoeff
  rw [List.length_append, Finset.sum_range_add]
  congr 1
  · refine Finset.sum_congr rfl fun i hi => ?_
    rw [Finset.mem_range] at hi
    rw [List.getD_append _ _ _ _ hi]
  · refine Finset.sum_congr rfl fun j _ => ?_
    rw [List.getD_append_right _ _ _ _ (by omega), Nat.add_sub_cancel_left]

theorem getD_mapIdx (f : ℕ → V → V) (l : List V) (i : ℕ) (hi : i < l.length) :
    (l.mapIdx f).getD i 0 = f i (l.getD i 0) := by
  rw [List.getD_eq_getElem _ _ (by simpa using hi), List.getElem_mapIdx, List.getD_eq_getElem _ _ hi]

theorem getD_zipWith (f : V → V → V) (l m : List V) (i : ℕ) (hi : i < l.length) (hm : i < m.length) :
    (List.zipWith f l m).getD i 0 = f (l.getD i 0) (m.getD i 0) := by
  rw [List.getD_eq_getElem _ _ (by simp; omega), List.getElem_zipWith, List.getD_eq_getElem _ _ hi,
    List.getD_eq_getElem _ _ hm]

/-- Two-sided interpolation on one interval. -/
theorem hermite_spec {inv : InvFun K} (hinv : InvOK inv) (h : ℕ) (dx : K) (hdx : dx ≠ 0)
    (left rght z : List V) (hl : left.length = h + 1) (hr : rght.length = h + 1) :
    (hermite inv h dx left rght z).length = 2 * (h + 1) + z.length ∧
    (∀ k ≤ h, (hermite inv h dx left rght z).getD k 0 = left.getD k 0) ∧
    (∀ k, (hermite inv h dx left rght z).getD (2 * (h + 1) + k) 0 = z.getD k 0) ∧
    ∀ k ≤ h, taylorCoeff (hermite inv h dx left rght z) dx k = rght.getD k 0 := by
  set c := left ++ List.replicate (h + 1) (0:V) ++ z with hc
  have hcl : c.length = 2 * (h + 1) + z.length := by simp [hc, hl]; omega
  have hpd := polyddx_eq c dx h (by omega)
  set r1 := List.zipWith (· - ·) rght (polyddx c dx h) with hr1
  have hr1l : r1.length = h + 1 := by simp [hr1, hr, hpd]
  set r2 := r1.mapIdx (fun k v => dx ^ k • v) with hr2
  have hr2l : r2.length = h + 1 := by simp [hr2, hr1l]
  set r3 := matDot (inv (h + 1) (twoSided K h)) r2 with hr3
  have hr3l : r3.length = h + 1 := by simp [hr3]
  set r4 := r3.mapIdx (fun k v => (1 / dx ^ (h + 1 + k)) • v) with hr4
  have hr4l : r4.length = h + 1 := by simp [hr4, hr3l]
  have hdef : hermite inv h dx left rght z = left ++ r4 ++ z := rfl
  rw [hdef]
  refine ⟨by simp [hl, hr4l]; omega, ?_, ?_, ?_⟩
  · intro k hk
    rw [List.append_assoc, List.getD_append _ _ _ _ (by omega)]
  · intro k
    rw [List.getD_append_right _ _ _ _ (by simp [hl, hr4l]; omega)]
    congr 1; simp [hl, hr4l]; omega
  · intro k hk
    have hM := (hinv (h + 1) (twoSided K h) (isUnit_iff_ne_zero.mpr (twoSided_det h))).1
    have e1 : taylorCoeff (left ++ r4 ++ z) dx k = taylorCoeff c dx k +
        ∑ j ∈ Finset.range (h + 1), (((h + 1 + j).choose k : K) * dx ^ (h + 1 + j - k)) • r4.getD j 0 := by
      rw [hc, taylorCoeff_append, taylorCoeff_append, taylorCoeff_append (left ++ _),
        taylorCoeff_append left]
      have z0 : ∑ j ∈ Finset.range (List.replicate (h + 1) (0:V)).length,
          (((left.length + j).choose k : K) * dx ^ (left.length + j - k)) •
            (List.replicate (h + 1) (0:V)).getD j 0 = 0 := by
        refine Finset.sum_eq_zero fun j hj => ?_
        simp only [List.length_replicate, Finset.mem_range] at hj
        rw [List.getD_eq_getElem _ _ (by simpa using hj)]; simp
      rw [z0, hr4l, hl]
      simp only [List.length_append, hl, hr4l, List.length_replicate]
      abel
    rw [e1]
    have e2 : ∑ j ∈ Finset.range (h + 1), (((h + 1 + j).choose k : K) * dx ^ (h + 1 + j - k)) •
        r4.getD j 0 = (1 / dx ^ k) • ∑ j : Fin (h + 1), twoSided K h ⟨k, by omega⟩ j • r3.getD j 0 := by
      rw [Finset.smul_sum, ← Fin.sum_univ_eq_sum_range (fun j =>
        (((h + 1 + j).choose k : K) * dx ^ (h + 1 + j - k)) • r4.getD j 0) (h + 1)]
      refine Finset.sum_congr rfl fun j _ => ?_
      rw [hr4, getD_mapIdx _ _ _ (by omega), twoSided_apply, smul_smul, smul_smul]
      congr 1
      have : dx ^ (h + 1 + (j:ℕ)) = dx ^ (h + 1 + (j:ℕ) - k) * dx ^ k := by
        rw [← pow_add]; congr 1; omega
      rw [this]
      have h1 : dx ^ (h + 1 + (j:ℕ) - k) ≠ 0 := pow_ne_zero _ hdx
      have h2 : dx ^ k ≠ 0 := pow_ne_zero _ hdx
      field_simp
    have e3 : ∑ j : Fin (h + 1), twoSided K h ⟨k, by omega⟩ j • r3.getD j 0 = r2.getD k 0 := by
      have : ∀ j : Fin (h + 1), r3.getD j 0 = ∑ i, inv (h + 1) (twoSided K h) j i • r2.getD i 0 :=
        fun j => matDot_getD _ _ _
      simp only [this, Finset.smul_sum, smul_smul]
      rw [Finset.sum_comm]
      have h3 : ∀ i : Fin (h + 1), ∑ j, (twoSided K h ⟨k, by omega⟩ j * inv (h + 1) (twoSided K h) j i) •
          r2.getD i 0 = ((1 : Matrix (Fin (h + 1)) (Fin (h + 1)) K) ⟨k, by omega⟩ i) • r2.getD i 0 := by
        intro i
        rw [← Finset.sum_smul, ← hM, Matrix.mul_apply]
      simp only [h3]
      rw [Finset.sum_eq_single ⟨k, by omega⟩]
      · simp
      · intro i _ hi; rw [Matrix.one_apply_ne hi.symm, zero_smul]
      · simp
    rw [e2, e3, hr2, getD_mapIdx _ _ _ (by omega), smul_smul,
      one_div_mul_cancel (pow_ne_zero _ hdx), one_smul, hr1,
      getD_zipWith _ _ _ _ (by omega) (by rw [hpd]; simp; omega), hpd, tcList_getD _ _ _ _ hk]
    abel

/-! ### assembling the pieces -/

@[simp] theorem length_col (args : List (List V)) (i : ℕ) : (col args i).length = args.length := by
  simp [col]

@[simp] theorem length_divFact (args : List (List V)) : (divFact K args).length = args.length := by
  simp [divFact]

theorem col_divFact (args : List (List V)) (i k : ℕ) :
    (col (divFact K args) i).getD k 0 = (1 / (Nat.factorial k : K)) • (args.getD k []).getD i 0 := by
  unfold col divFact
  simp only [List.getD_eq_getElem?_getD, List.getElem?_map, List.getElem?_mapIdx]
  cases h : args[k]? with
  | none => simp
  | some r =>
    simp only [Option.map_some, Option.getD_some, List.getElem?_map]
    cases r[i]? <;> simp

theorem initPieces_length (inv : InvFun K) (xk : List K) (args : List (List V)) (argz : Option (List V))
    (hx : 2 ≤ xk.length) : (initPieces inv xk args argz).c.length = xk.length + 1 := by
  simp [initPieces]; omega

/-- The optional top coefficient of interval `i` (`_` before the first or after the last knot: 0). -/
def topCoeff (K : Type) [Field K] {V : Type} [AddCommGroup V] [Module K V] (h : ℕ)
    (argz : Option (List V)) (i : ℕ) : List V :=
  match argz with
  | none => []
  | some r => [(1 / (evenDiv h : K)) • r.getD i 0]

theorem initPieces_inner (inv : InvFun K) (xk : List K) (args : List (List V)) (argz : Option (List V))
    (hx : 2 ≤ xk.length) (i : ℕ) (hi : i + 1 < xk.length) :
    piece (initPieces inv xk args argz) (i + 1) =
      hermite inv (args.length - 1) (xk.getD (i + 1) 0 - xk.getD i 0) (col (divFact K args) i)
        (col (divFact K args) (i + 1)) (topCoeff K (args.length - 1) argz i) := by
  unfold piece
  rw [List.getD_eq_getElem _ _ (by rw [initPieces_length _ _ _ _ hx]; omega)]
  simp only [initPieces]
  rw [List.getElem_append_left (by simp; omega), List.getElem_append_right (by simp)]
  simp only [List.length_cons, List.length_nil, List.getElem_map, List.getElem_range, zero_add,
    Nat.add_sub_cancel]
  congr 1
  unfold topCoeff
  cases argz with
  | none => rfl
  | some r =>
    simp only [Option.map_some, List.getD_eq_getElem?_getD, List.getElem?_map]
    cases r[i]? <;> simp

theorem initPieces_lo (inv : InvFun K) (xk : List K) (args : List (List V)) (argz : Option (List V)) :
    piece (initPieces inv xk args argz) 0 =
      col (divFact K args) 0 ++ List.replicate (args.length - 1 + 1 + (if argz.isSome then 1 else 0)) 0 := by
  unfold piece initPieces
  cases argz <;> simp [List.replicate_succ', List.append_assoc]

theorem initPieces_hi (inv : InvFun K) (xk : List K) (args : List (List V)) (argz : Option (List V))
    (hx : 2 ≤ xk.length) :
    piece (initPieces inv xk args argz) xk.length =
      col (divFact K args) (xk.length - 1) ++
        List.replicate (args.length - 1 + 1 + (if argz.isSome then 1 else 0)) 0 := by
  unfold piece
  rw [List.getD_eq_getElem _ _ (by rw [initPieces_length _ _ _ _ hx]; omega)]
  simp only [initPieces]
  rw [List.getElem_append_right (by simp; omega)]
  cases argz <;> simp [List.replicate_succ', List.append_assoc]

theorem length_topCoeff (h : ℕ) (argz : Option (List V)) (i : ℕ) :
    (topCoeff K h argz i).length = if argz.isSome then 1 else 0 := by
  cases argz <;> simp [topCoeff]

theorem initPieces_WF {inv : InvFun K} (hinv : InvOK inv) {xk : List K} (hs : xk.Pairwise (· < ·))
    (hx : 2 ≤ xk.length) (args : List (List V)) (ha : args ≠ []) (argz : Option (List V)) :
    WF (initPieces inv xk args argz) := by
  have hal : 1 ≤ args.length := List.length_pos_iff.mpr ha
  refine ⟨?_, hs, initPieces_length _ _ _ _ hx,
    by simp only [initPieces]; omega, ?_⟩
  · intro h
    have h' : xk = [] := h
    rw [h'] at hx; simp at hx
  · apply mem_getD_length'
    intro i hi
    rw [initPieces_length _ _ _ _ hx] at hi
    have hn : (initPieces inv xk args argz).n = 2 * (args.length - 1 + 1) + if argz.isSome then 1 else 0 := by
      cases argz <;> simp [initPieces]
    rw [hn]
    show (piece (initPieces inv xk args argz) i).length = _
    rcases Nat.eq_zero_or_pos i with h0 | h0
    · subst h0; rw [initPieces_lo]; simp; omega
    · obtain ⟨j, rfl⟩ : ∃ j, i = j + 1 := ⟨i - 1, by omega⟩
      by_cases h1 : j + 1 < xk.length
      · rw [initPieces_inner _ _ _ _ hx _ h1, (hermite_spec hinv _ _ ?_ _ _ _ (by simp; omega)
          (by simp; omega)).1, length_topCoeff]
        rw [List.getD_eq_getElem _ _ h1, List.getD_eq_getElem _ _ (by omega), sub_ne_zero]
        exact (List.pairwise_iff_getElem.mp hs j (j + 1) (by omega) h1 (by omega)).ne'
      · have : j + 1 = xk.length := by omega
        rw [this, initPieces_hi _ _ _ _ hx]; simp; omega
where
  mem_getD_length' {c : List (List V)} {n : ℕ} (h : ∀ i < c.length, (c.getD i []).length = n) :
      ∀ l ∈ c, l.length = n := by
    intro l hl
    obtain ⟨j, hj, rfl⟩ := List.getElem_of_mem hl
    have := h j hj
    rwa [List.getD_eq_getElem _ _ hj] at this

theorem fact_smul (k : ℕ) (v : V) : (Nat.factorial k : K) • (1 / (Nat.factorial k : K)) • v = v := by
  have : (Nat.factorial k : K) ≠ 0 := by
    have := Nat.factorial_pos k
    positivity
  rw [smul_smul, mul_one_div_cancel this, one_smul]

/-- Derivatives at a knot, from both sides. -/
theorem initPieces_knot {inv : InvFun K} (hinv : InvOK inv) {xk : List K} (hs : xk.Pairwise (· < ·))
    (hx : 2 ≤ xk.length) (args : List (List V)) (ha : args ≠ []) (argz : Option (List V))
    (j : ℕ) (hj : j < xk.length) (k : ℕ) (hk : k < args.length) :
    pieceDeriv (initPieces inv xk args argz) j (xk.getD j 0) k = (args.getD k []).getD j 0 ∧
    pieceDeriv (initPieces inv xk args argz) (j + 1) (xk.getD j 0) k = (args.getD k []).getD j 0 := by
  have hal : 1 ≤ args.length := List.length_pos_iff.mpr ha
  have hxk : (initPieces inv xk args argz).xk = xk := rfl
  have hgap : ∀ i, i + 1 < xk.length → xk.getD (i + 1) 0 - xk.getD i 0 ≠ 0 := by
    intro i hi
    rw [List.getD_eq_getElem _ _ hi, List.getD_eq_getElem _ _ (by omega), sub_ne_zero]
    exact (List.pairwise_iff_getElem.mp hs i (i + 1) (by omega) hi (by omega)).ne'
  constructor
  · unfold pieceDeriv
    rw [hxk]
    cases j with
    | zero =>
      have : xk.getD 0 0 - origin xk 0 = 0 := by simp [origin]
      rw [this, polyDeriv_eq, taylorCoeff_at_zero, initPieces_lo,
        List.getD_append _ _ _ _ (by simpa using hk), col_divFact, fact_smul]
    | succ j =>
      rw [initPieces_inner _ _ _ _ hx _ hj, polyDeriv_eq]
      have : xk.getD (j + 1) 0 - origin xk (j + 1) = xk.getD (j + 1) 0 - xk.getD j 0 := by
        simp [origin]
      rw [this, (hermite_spec hinv _ _ (hgap j hj) _ _ _ (by simp; omega) (by simp; omega)).2.2.2 k
        (by omega), col_divFact, fact_smul]
  · unfold pieceDeriv
    rw [hxk]
    have : xk.getD j 0 - origin xk (j + 1) = 0 := by simp [origin]
    rw [this, polyDeriv_eq, taylorCoeff_at_zero]
    by_cases h1 : j + 1 < xk.length
    · rw [initPieces_inner _ _ _ _ hx _ h1,
        (hermite_spec hinv _ _ (hgap j h1) _ _ _ (by simp; omega) (by simp; omega)).2.1 k (by omega),
        col_divFact, fact_smul]
    · have e : j + 1 = xk.length := by omega
      rw [e, initPieces_hi _ _ _ _ hx, List.getD_append _ _ _ _ (by simpa using hk), col_divFact,
        fact_smul]
      congr 1; omega

/-! ### uniqueness -/

/-- Two polynomials of the same odd degree with the same data at both ends are equal. -/
theorem hermite_unique {inv : InvFun K} (hinv : InvOK inv) (h : ℕ) (dx : K) (hdx : dx ≠ 0)
    (a b : List V) (ha : a.length = 2 * (h + 1)) (hb : b.length = 2 * (h + 1))
    (h0 : ∀ k ≤ h, a.getD k 0 = b.getD k 0)
    (h1 : ∀ k ≤ h, taylorCoeff a dx k = taylorCoeff b dx k) : a = b := by
  -- scaled difference of the upper halves
  set w : Fin (h + 1) → V := fun j => dx ^ (h + 1 + (j:ℕ)) • (a.getD (h + 1 + j) 0 - b.getD (h + 1 + j) 0)
    with hw
  have hMw : ∀ k : Fin (h + 1), ∑ j, twoSided K h k j • w j = 0 := by
    intro k
    have e := h1 k (by omega)
    unfold taylorCoeff at e
    rw [ha, hb, show 2 * (h + 1) = (h + 1) + (h + 1) by omega, Finset.sum_range_add _ (h + 1) (h + 1),
      Finset.sum_range_add _ (h + 1) (h + 1)] at e
    have e0 : ∑ i ∈ Finset.range (h + 1), ((i.choose k : K) * dx ^ (i - (k:ℕ))) • a.getD i 0 =
        ∑ i ∈ Finset.range (h + 1), ((i.choose k : K) * dx ^ (i - (k:ℕ))) • b.getD i 0 := by
      refine Finset.sum_congr rfl fun i hi => ?_
      rw [Finset.mem_range] at hi
      rw [h0 i (by omega)]
    rw [e0] at e
    have e1 := add_left_cancel e
    rw [← sub_eq_zero, ← Finset.sum_sub_distrib] at e1
    have e2 : ∑ j : Fin (h + 1), twoSided K h k j • w j =
        dx ^ (k:ℕ) • ∑ i ∈ Finset.range (h + 1),
          ((((h + 1 + i).choose k : K) * dx ^ (h + 1 + i - (k:ℕ))) • a.getD (h + 1 + i) 0 -
           (((h + 1 + i).choose k : K) * dx ^ (h + 1 + i - (k:ℕ))) • b.getD (h + 1 + i) 0) := by
      rw [Finset.smul_sum, ← Fin.sum_univ_eq_sum_range (fun i => dx ^ (k:ℕ) •
          ((((h + 1 + i).choose k : K) * dx ^ (h + 1 + i - (k:ℕ))) • a.getD (h + 1 + i) 0 -
           (((h + 1 + i).choose k : K) * dx ^ (h + 1 + i - (k:ℕ))) • b.getD (h + 1 + i) 0)) (h + 1)]
      refine Finset.sum_congr rfl fun j _ => ?_
      rw [hw, twoSided_apply, ← smul_sub, smul_smul, smul_smul]
      congr 1
      have : dx ^ (h + 1 + (j:ℕ)) = dx ^ (h + 1 + (j:ℕ) - (k:ℕ)) * dx ^ (k:ℕ) := by
        rw [← pow_add]; congr 1; omega
      rw [this]; ring
    rw [e2, e1, smul_zero]
  have hw0 : ∀ j, w j = 0 := by
    intro j
    have hM := (hinv (h + 1) (twoSided K h) (isUnit_iff_ne_zero.mpr (twoSided_det h))).2
    have : ∑ k, inv (h + 1) (twoSided K h) j k • ∑ i, twoSided K h k i • w i = w j := by
      simp only [Finset.smul_sum, smul_smul]
      rw [Finset.sum_comm]
      have h3 : ∀ i : Fin (h + 1), ∑ k, (inv (h + 1) (twoSided K h) j k * twoSided K h k i) • w i =
          ((1 : Matrix (Fin (h + 1)) (Fin (h + 1)) K) j i) • w i := by
        intro i
        rw [← Finset.sum_smul, ← hM, Matrix.mul_apply]
      simp only [h3]
      rw [Finset.sum_eq_single j]
      · simp
      · intro i _ hi; rw [Matrix.one_apply_ne hi.symm, zero_smul]
      · simp
    rw [← this]
    simp [hMw]
  apply List.ext_getElem (by omega)
  intro i hi1 hi2
  rw [← List.getD_eq_getElem a 0 hi1, ← List.getD_eq_getElem b 0 hi2]
  by_cases hi : i ≤ h
  · exact h0 i hi
  · have := hw0 ⟨i - (h + 1), by omega⟩
    simp only [hw] at this
    rw [smul_eq_zero] at this
    have h3 := this.resolve_left (pow_ne_zero _ hdx)
    rw [sub_eq_zero, show h + 1 + (i - (h + 1)) = i by omega] at h3
    exact h3

end Npplus
