import Verif.Props.Regress
import Verif.Props.LevmarLinOk

/-!
# C114: regress and levmar agree on linear models
-/

set_option linter.unusedSectionVars false
namespace Npplus
open Npplus.Spec

namespace Spec
variable {K : Type} [Field K] [LinearOrder K]

/-- a list as a one-dimensional array -/
def vec (l : List K) : NdArr K := ⟨[l.length], fun idx => l.getD (idx.getD 0 0) 0⟩

/-- How far the fit of `levmar` can be from the best one, for the constant `mu` of the columns: a multiple of `tol` when it converged, and
otherwise a bound that shrinks geometrically with `itmax`. -/
def lmGap (A : LmArgs K) (V : List K → List K) (mu : K) (r : LmFit K) : K :=
  (if r.warned then (A.cfg.lambda0 / (2 * mu + A.cfg.lambda0)) ^ A.cfg.itmax else r.lamda * A.cfg.tol / (2 * mu)) * lmChisq A V A.p0

end Spec

variable {K : Type} [Field K] [LinearOrder K] [IsStrictOrderedRing K]

namespace AgreeAux
variable {svd : ∀ nc N, Matrix (Fin nc) (Fin N) K → Except PyErr (SVD K nc N)} {A : LmArgs K} {cols : List (List K)} {rcond : K}

theorem bget_vec {l : List K} {t n : ℕ} (ht : t < n) (hl : l.length = 1 ∨ l.length = n) : bget (vec l) [t] = elem1 l t := by
  unfold bget vec bcIdx elem1
  by_cases h1 : l.length = 1
  · simp [h1]
  · simp [h1]

theorem bget_col {l : List K} {t n : ℕ} (ht : t < n) (hl : l.length = n) : bget (vec l) [t] = l.getD t 0 := by
  unfold bget vec bcIdx
  by_cases h1 : l.length = 1
  · have : t = 0 := by omega
    simp [h1, this]
  · simp [h1]

theorem prod_vec (l : List K) : (vec l).shape.prod = l.length := by simp [vec]

theorem at_vec (l : List K) (t : ℕ) : at_ (vec l) t = [t] := by
  simp [at_, vec, NdArr.unravel]

theorem design (hcols : ∀ c ∈ cols, c.length = A.data.length) (he : A.errs.length = 1 ∨ A.errs.length = A.data.length)
    (i : Fin (cols.map vec).length) (t : Fin (vec A.data).shape.prod) :
    designMatrix (vec A.data) (cols.map vec) (vec A.errs) i t = ent cols i t / elem1 A.errs t := by
  have ht : (t : ℕ) < A.data.length := t.2.trans_eq (prod_vec _)
  have hi : (i : ℕ) < cols.length := i.2.trans_eq (List.length_map _)
  unfold designMatrix
  rw [at_vec, bget_vec ht he]
  congr 1
  have e : (cols.map vec).get i = vec (cols[(i : ℕ)]) := by simp
  rw [e, bget_col ht (hcols _ (List.getElem_mem hi))]
  unfold ent
  rw [List.getD_eq_getElem _ _ hi]

theorem chisq_vec (hcols : ∀ c ∈ cols, c.length = A.data.length) (he : A.errs.length = 1 ∨ A.errs.length = A.data.length)
    (hp : A.p0.length = cols.length) {V : List K → List K} (hV : LinearModel A V (ent cols) 0) (q : Fin (cols.map vec).length → K) :
    lmChisq A V (List.ofFn q) = chisq (vec A.data) (cols.map vec) (vec A.errs) q := by
  rw [chisq_eq]
  unfold lmChisq
  rw [← Fin.sum_univ_eq_sum_range (fun t => ((A.data.getD t 0 - (V (List.ofFn q)).getD t 0) / elem1 A.errs t) ^ 2)]
  have hN := prod_vec A.data
  rw [← (finCongr hN).sum_comp]
  refine Finset.sum_congr rfl fun t _ => ?_
  have ht : (t : ℕ) < A.data.length := t.2.trans_eq (prod_vec _)
  simp only [finCongr_apply, Fin.val_cast]
  rw [hV _ (by simp [hp]) t ht, at_vec, bget_vec ht he]
  have e1 : ∑ i ∈ Finset.range A.p0.length, ent cols i t * (List.ofFn q).getD i 0 =
      ∑ i : Fin (cols.map vec).length, q i * ent cols i t := by
    rw [hp, ← List.length_map vec, ← Fin.sum_univ_eq_sum_range (fun i => ent cols i t * (List.ofFn q).getD i 0)]
    refine Finset.sum_congr rfl fun i _ => ?_
    rw [List.getD_eq_getElem _ _ (by rw [List.length_ofFn]; exact i.2), List.getElem_ofFn]
    exact mul_comm _ _
  have e2 : ∑ i, q i * designMatrix (vec A.data) (cols.map vec) (vec A.errs) i t =
      (∑ i : Fin (cols.map vec).length, q i * ent cols i t) / elem1 A.errs t := by
    rw [Finset.sum_div]
    exact Finset.sum_congr rfl fun i _ => by rw [design hcols he, mul_div_assoc]
  rw [e1, e2]
  have e3 : (vec A.data).get [(t : ℕ)] = A.data.getD t 0 := rfl
  rw [e3, ← sub_div, Pi.zero_apply, zero_add]
  rw [div_pow, div_pow]
  congr 1
  ring

/-- all singular values are kept when `regress` reports none of them as zero -/
theorem kept (hsvd : ∀ nc N m d, svd nc N m = .ok d → IsSVD m d) {data errs : NdArr K} {mdl : List (NdArr K)}
    {r : RegFit K mdl.length data.shape.prod} (h : regress svd data mdl errs rcond = .ok r) (hs : ∀ j, r.s j ≠ 0) :
    ∃ d, svd _ _ (designMatrix data mdl errs) = .ok d ∧ IsSVD (designMatrix data mdl errs) d ∧ r.s = d.s := by
  obtain ⟨d, hd, hc⟩ := regress_ok h
  refine ⟨d, hd, hsvd _ _ _ _ hd, funext fun j => ?_⟩
  have := C40_discards hsvd h hd j
  split_ifs at this with h0
  · exact absurd this (hs j)
  · exact this

/-- the fit of `regress` and any other coefficients: Pythagoras -/
theorem pythagoras (hsvd : ∀ nc N m d, svd nc N m = .ok d → IsSVD m d) {data errs : NdArr K} {mdl : List (NdArr K)}
    {r : RegFit K mdl.length data.shape.prod} (h : regress svd data mdl errs rcond = .ok r) (hs : ∀ j, r.s j ≠ 0) (q : Fin mdl.length → K) :
    chisq data mdl errs q = chisq data mdl errs r.p + ∑ t, (∑ i, (q i - r.p i) * designMatrix data mdl errs i t) ^ 2 := by
  obtain ⟨d, hd, hS, hk⟩ := kept hsvd h hs
  rw [regress_compare hsvd h hd q fun j hj => absurd (congrFun hk j) hj]
  congr 1
  have := resid_coord hS (fun i => q i - r.p i) 0
  simp only [Pi.zero_apply, sub_zero, mul_zero, Finset.sum_const_zero, ne_eq, OfNat.ofNat_ne_zero, not_false_eq_true, zero_pow, add_zero] at this
  rw [this]
  refine Finset.sum_congr rfl fun j _ => ?_
  rw [if_neg (hs j)]
  simp only [sub_mul, Finset.sum_sub_distrib]
  ring

/-- no nonzero combination of the rows vanishes when all singular values are positive and there are at least as many data as models -/
theorem indep {nc N : ℕ} {m : Matrix (Fin nc) (Fin N) K} {d : SVD K nc N} (hS : IsSVD m d) (hs : ∀ j, d.s j ≠ 0) (hle : nc ≤ N)
    (x : Fin nc → K) (hx : ∀ t, ∑ i, x i * m i t = 0) : x = 0 := by
  have h1 := resid_coord hS x 0
  simp only [hx, Pi.zero_apply, sub_zero, mul_zero, Finset.sum_const_zero, ne_eq, OfNat.ofNat_ne_zero, not_false_eq_true, zero_pow, add_zero] at h1
  have h2 : ∀ j, ∑ i, x i * d.u i j = 0 := fun j => by
    have := (Finset.sum_eq_zero_iff_of_nonneg (fun j _ => sq_nonneg _)).1 h1.symm j (Finset.mem_univ _)
    exact (mul_eq_zero.1 (pow_eq_zero_iff (two_ne_zero)|>.1 this)).resolve_right (hs j)
  let U : Matrix (Fin nc) (Fin (min nc N)) K := fun i j => d.u i j
  have h3 : U.transpose * U = 1 := by
    ext j j'
    rw [Matrix.mul_apply, Matrix.one_apply]
    exact hS.uu j j'
  have h4 : U * U.transpose = 1 := (Matrix.mul_eq_one_comm_of_card_eq _ _ _ (by simp [hle])).1 h3
  funext i
  have h5 : x i = ∑ k, (U * U.transpose) i k * x k := by
    rw [h4]; simp [Matrix.one_apply]
  rw [h5]
  simp only [Matrix.mul_apply, Finset.sum_mul]
  rw [Finset.sum_comm]
  simp only [Pi.zero_apply]
  refine Finset.sum_eq_zero fun j _ => ?_
  have h6 : ∑ k, U i j * U.transpose j k * x k = U i j * ∑ k, x k * d.u k j := by
    rw [Finset.mul_sum]
    exact Finset.sum_congr rfl fun k _ => by
      show d.u i j * d.u k j * x k = d.u i j * (x k * d.u k j)
      ring
  rw [h6, h2, mul_zero]

end AgreeAux

open AgreeAux

section
variable {svd : ∀ nc N, Matrix (Fin nc) (Fin N) K → Except PyErr (SVD K nc N)} {A : LmArgs K} {cols : List (List K)} {rcond : K}
    {rr : RegFit K (cols.map vec).length (vec A.data).shape.prod}

/-- **C114**, what `regress` reports: when none of the singular values it returns is zero (and there are at least as many data as models), the models
are linearly independent, so that the hypothesis of C112 holds. -/
theorem C114_independent (hsvd : ∀ nc N m d, svd nc N m = .ok d → IsSVD m d) (hcols : ∀ c ∈ cols, c.length = A.data.length)
    (he : A.errs.length = 1 ∨ A.errs.length = A.data.length) (hp : A.p0.length = cols.length) (hle : cols.length ≤ A.data.length)
    (h : regress svd (vec A.data) (cols.map vec) (vec A.errs) rcond = .ok rr) (hs : ∀ j, rr.s j ≠ 0) : IndependentCols A (ent cols) := by
  obtain ⟨d, -, hS, hk⟩ := kept hsvd h hs
  intro u _ hu i hi
  have hx := indep hS (fun j => by rw [← hk]; exact hs j) (by rw [List.length_map, prod_vec]; exact hle)
    (fun i : Fin (cols.map vec).length => u i) (fun t => by
      have ht : (t : ℕ) < A.data.length := t.2.trans_eq (prod_vec _)
      have h1 := hu t ht
      rw [hp, ← List.length_map vec, ← Fin.sum_univ_eq_sum_range (fun i => ent cols i t * u i)] at h1
      have h2 : ∑ i : Fin (cols.map vec).length, u i * designMatrix (vec A.data) (cols.map vec) (vec A.errs) i t =
          (∑ i : Fin (cols.map vec).length, ent cols i t * u i) / elem1 A.errs t := by
        rw [Finset.sum_div]
        exact Finset.sum_congr rfl fun i _ => by rw [design hcols he]; ring
      rw [h2, h1, zero_div])
  exact congrFun hx ⟨i, by rw [List.length_map, ← hp]; exact hi⟩

variable {solve : List (List K) → List K → Except PyErr (List K)} {inv : List (List K) → Except PyErr (List (List K))} {F : UserF K}
    {V : List K → List K} {D : List K → List (List K)} {mu : K} {fo fi : ℕ} {r : LmFit K}

/-- **C114**.  Fit the same data with the same errors by `regress(data, *cols, errs=errs)` and by `levmar` with the function
`sum_i p_i cols_i` (no bounds, nothing fixed).  When `regress` reports no zero singular value, its chi squared is the smaller one, the one of `levmar`
exceeds it by at most `lmGap`, and the parameters differ by no more than that (weighted with the effect each has on the data, and the constant `mu` of
the columns). -/
theorem C114_agree (hsvd : ∀ nc N m d, svd nc N m = .ok d → IsSVD m d) (hcols : ∀ c ∈ cols, c.length = A.data.length)
    (he : A.errs.length = 1 ∨ A.errs.length = A.data.length) (hp : A.p0.length = cols.length)
    (h : regress svd (vec A.data) (cols.map vec) (vec A.errs) rcond = .ok rr) (hsing : ∀ j, rr.s j ≠ 0)
    (hs : SolveLen solve) (hso : SolveOK solve) (hV : PureF F V A.data.length)
    (hD : F.isgen = true → PureD F D A.data.length) (hB : LinearModel A V (ent cols) 0) (hDB : F.isgen = true → ∀ q i t, ent (D q) i t = ent cols i t)
    (hmin : A.pmin = none) (hmax : A.pmax = none) (hfix : A.pfix = none) (hmu : 0 < mu) (hc : Conditioned A (ent cols) mu)
    (hl0 : 0 < A.cfg.lambda0) (hgain : 1 < A.cfg.gain) (htol : 0 ≤ A.cfg.tol) (hr : (levmar A F solve inv fo fi).1 = .ok r) :
    lmChisq A V (List.ofFn rr.p) ≤ lmChisq A V r.p ∧
    lmChisq A V r.p ≤ lmChisq A V (List.ofFn rr.p) + lmGap A V mu r ∧
    mu * ∑ i : Fin (cols.map vec).length, ∑ t ∈ Finset.range A.data.length, (ent cols i t * (r.p.getD i 0 - rr.p i) / elem1 A.errs t) ^ 2 ≤ lmGap A V mu r := by
  have hnf : ∀ i, ¬ Fixed A i := fun i ⟨l, hl, _⟩ => by rw [hfix] at hl; cases hl
  have hkf : KeepsFixed A (List.ofFn rr.p) := ⟨by simp [hp], fun i _ hf => absurd hf (hnf i)⟩
  have hup : lmChisq A V r.p ≤ lmChisq A V (List.ofFn rr.p) + lmGap A V mu r := by
    have h1 := C112_linear_model hs hso hV hD hB hDB hmin hmax hmu hc hl0 hgain htol hr hkf
    unfold lmGap
    cases hw : r.warned
    · simpa using (h1.1 hw).2
    · simpa using h1.2 hw
  have hlen : r.p.length = A.p0.length := ((C44_fixed hs inv fo fi).2 r hr).1
  have hrp : r.p = List.ofFn (fun i : Fin (cols.map vec).length => r.p.getD i 0) := by
    apply List.ext_getElem (by simp [hlen, hp])
    intro k h1 h2
    rw [List.getElem_ofFn, List.getD_eq_getElem _ _ h1]
  have hpy := pythagoras hsvd h hsing (fun i => r.p.getD i 0)
  rw [← chisq_vec hcols he hp hB, ← chisq_vec hcols he hp hB, ← hrp] at hpy
  have hcond := hc (fun i => r.p.getD i 0 - (List.ofFn rr.p).getD i 0) fun i _ hf => absurd hf (hnf i)
  have e1 : ∀ i : Fin (cols.map vec).length, (List.ofFn rr.p).getD i 0 = rr.p i := fun i => by
    rw [List.getD_eq_getElem _ _ (by rw [List.length_ofFn]; exact i.2), List.getElem_ofFn]
  rw [hp, ← List.length_map vec, ← Fin.sum_univ_eq_sum_range (fun i => ∑ t ∈ Finset.range A.data.length,
    (ent cols i t * (r.p.getD i 0 - (List.ofFn rr.p).getD i 0) / elem1 A.errs t) ^ 2)] at hcond
  simp only [e1] at hcond
  have e2 : ∑ t ∈ Finset.range A.data.length, ((∑ i ∈ Finset.range (cols.map vec).length,
      ent cols i t * (r.p.getD i 0 - (List.ofFn rr.p).getD i 0)) / elem1 A.errs t) ^ 2 =
      ∑ t, (∑ i : Fin (cols.map vec).length, (r.p.getD i 0 - rr.p i) * designMatrix (vec A.data) (cols.map vec) (vec A.errs) i t) ^ 2 := by
    rw [← Fin.sum_univ_eq_sum_range (fun t => ((∑ i ∈ Finset.range (cols.map vec).length,
      ent cols i t * (r.p.getD i 0 - (List.ofFn rr.p).getD i 0)) / elem1 A.errs t) ^ 2), ← (finCongr (prod_vec A.data)).sum_comp]
    refine Finset.sum_congr rfl fun t _ => ?_
    simp only [finCongr_apply, Fin.val_cast]
    rw [← Fin.sum_univ_eq_sum_range (fun i => ent cols i t * (r.p.getD i 0 - (List.ofFn rr.p).getD i 0)), Finset.sum_div]
    congr 1
    exact Finset.sum_congr rfl fun i _ => by rw [design hcols he, e1]; ring
  rw [e2] at hcond
  have hnn : 0 ≤ ∑ t, (∑ i : Fin (cols.map vec).length, (r.p.getD i 0 - rr.p i) * designMatrix (vec A.data) (cols.map vec) (vec A.errs) i t) ^ 2 :=
    Finset.sum_nonneg fun t _ => sq_nonneg _
  exact ⟨by linarith, hup, by linarith⟩

/-- **C114**, both together: when `regress` reports no zero singular value and the other arguments are sensible, `levmar` succeeds, and its fit is the
one of `regress` up to `lmGap`. -/
theorem C114_both (hsvd : ∀ nc N m d, svd nc N m = .ok d → IsSVD m d) (hcols : ∀ c ∈ cols, c.length = A.data.length)
    (hp : A.p0.length = cols.length) (hle : cols.length ≤ A.data.length)
    (h : regress svd (vec A.data) (cols.map vec) (vec A.errs) rcond = .ok rr) (hsing : ∀ j, rr.s j ≠ 0)
    (hs : SolveLen solve) (hso : SolveOK solve) (hst : SolveTotal solve) (hit : InvTotal inv) (hw : WellPosed A F D (ent cols))
    (hV : PureF F V A.data.length) (hD : F.isgen = true → PureD F D A.data.length) (hB : LinearModel A V (ent cols) 0)
    (hDB : F.isgen = true → ∀ q i t, ent (D q) i t = ent cols i t) (hmin : A.pmin = none) (hmax : A.pmax = none) (hfix : A.pfix = none)
    (hl0 : 0 < A.cfg.lambda0) (hgain : 1 < A.cfg.gain) (htol : 0 ≤ A.cfg.tol) (hfo : max A.cfg.itmax 1 ≤ fo) (hfi : 1 ≤ fi) :
    ∃ mu > 0, Conditioned A (ent cols) mu ∧ ∃ r, (levmar A F solve inv fo fi).1 = .ok r ∧
      lmChisq A V (List.ofFn rr.p) ≤ lmChisq A V r.p ∧
      lmChisq A V r.p ≤ lmChisq A V (List.ofFn rr.p) + lmGap A V mu r ∧
      mu * ∑ i : Fin (cols.map vec).length, ∑ t ∈ Finset.range A.data.length, (ent cols i t * (r.p.getD i 0 - rr.p i) / elem1 A.errs t) ^ 2 ≤
        lmGap A V mu r := by
  have hi := C114_independent hsvd hcols hw.errs hp hle h hsing
  obtain ⟨mu, hmu, hc⟩ := C112_conditioned hw.errs0 hi
  obtain ⟨r, hr⟩ := C112_succeeds hs hso hst hit hw hV hD hB hDB hmin hmax hmu hc hl0 hgain hfo hfi
  exact ⟨mu, hmu, hc, r, hr, C114_agree hsvd hcols hw.errs hp h hsing hs hso hV hD hB hDB hmin hmax hfix hmu hc hl0 hgain htol hr⟩

end

/-! ### a concrete case -/

/-- a matrix with orthogonal rows of the same length has that length as its only singular value -/
theorem AgreeAux.sv_orthogonal {nc N : ℕ} {m : Matrix (Fin nc) (Fin N) K} {d : SVD K nc N} (hS : IsSVD m d) {c : K} (hc : 0 < c)
    (hm : ∀ i i', ∑ t, m i t * m i' t = if i = i' then c ^ 2 else 0) (j : Fin (min nc N)) : d.s j = c := by
  have h1 : ∑ t, (∑ i, d.u i j * m i t) ^ 2 = c ^ 2 := by
    have e : ∀ t, (∑ i, d.u i j * m i t) ^ 2 = ∑ i, ∑ i', d.u i j * d.u i' j * (m i t * m i' t) := fun t => by
      rw [sq, Finset.sum_mul_sum]
      exact Finset.sum_congr rfl fun i _ => Finset.sum_congr rfl fun i' _ => by ring
    simp only [e]
    rw [Finset.sum_comm]
    have e2 : ∀ i, ∑ t, ∑ i', d.u i j * d.u i' j * (m i t * m i' t) = d.u i j * d.u i j * c ^ 2 := fun i => by
      rw [Finset.sum_comm]
      simp only [← Finset.mul_sum, hm, mul_ite, mul_zero, Finset.sum_ite_eq, Finset.mem_univ, if_true]
    simp only [e2, ← Finset.sum_mul, hS.uu, if_true, one_mul]
  have h2 := resid_coord hS (fun i => d.u i j) 0
  simp only [Pi.zero_apply, sub_zero, mul_zero, Finset.sum_const_zero, ne_eq, OfNat.ofNat_ne_zero, not_false_eq_true, zero_pow, add_zero, hS.uu, ite_mul,
    one_mul, zero_mul, ite_pow, Finset.sum_ite_eq, Finset.mem_univ, if_true] at h2
  rw [h1] at h2
  have := hS.nonneg j
  nlinarith [sq_eq_sq₀ hc.le this |>.1 h2]

/-- the models -/
def agCols : List (List ℚ) := [[2, 2, 1], [-2, 1, 2]]
/-- `p0*[2, 2, 1] + p1*[-2, 1, 2]` -/
def agFun (p : List ℚ) : List ℚ :=
  [2 * p.getD 0 0 - 2 * p.getD 1 0, 2 * p.getD 0 0 + p.getD 1 0, p.getD 0 0 + 2 * p.getD 1 0]
/-- the plain Python function -/
def agUser : UserF ℚ := ⟨false, fun _ p => .ok (agFun p), fun _ _ => .error .typeError⟩
/-- fitted to `[1, 2, 6]` with error 1/2 -/
def agArgs : LmArgs ℚ where
  data := [1, 2, 6]
  errs := [1 / 2]
  p0 := [0, 0]
  cfg := { exCfg with itmax := 5 }

theorem agDesign : IsSVD (designMatrix (vec agArgs.data) (agCols.map vec) (vec agArgs.errs)) exSVD where
  eq := by
    intro i t
    change Fin 2 at i
    change Fin 3 at t
    fin_cases i <;> fin_cases t <;> decide +kernel
  uu := by decide +kernel
  vv := by decide +kernel
  nonneg := by decide +kernel
  anti := by decide +kernel

/-- `regress` succeeds on this case and reports no zero singular value -/
example : ∃ rr, regress (exactSVD ℚ) (vec agArgs.data) (agCols.map vec) (vec agArgs.errs) (1 / 10 ^ 9) = .ok rr ∧ ∀ j, rr.s j ≠ 0 := by
  have hd : ∃ d, exactSVD ℚ _ _ (designMatrix (vec agArgs.data) (agCols.map vec) (vec agArgs.errs)) = .ok d := by
    unfold exactSVD
    rw [dif_pos ⟨_, agDesign⟩]
    exact ⟨_, rfl⟩
  obtain ⟨rr, hrr⟩ := C40_succeeds (rcond := (1 / 10 ^ 9 : ℚ)) (by decide) (by right; left; rfl) (by decide) (by decide) hd
  refine ⟨rr, hrr, fun j => ?_⟩
  obtain ⟨d, hd⟩ := hd
  have hsv := sv_orthogonal (exactSVD_ok _ _ _ _ hd) (c := 6) (by norm_num) (by decide +kernel)
  rw [C40_discards (fun nc N m d => exactSVD_ok nc N m d) hrr hd j]
  simp only [hsv]
  rw [if_neg]
  · norm_num
  · rintro ⟨_, h⟩
    norm_num at h

example : PureF agUser agFun agArgs.data.length ∧ (∀ c ∈ agCols, c.length = agArgs.data.length) ∧ agArgs.p0.length = agCols.length ∧
    agArgs.pmin = none ∧ agArgs.pmax = none ∧ agArgs.pfix = none ∧ 0 < agArgs.cfg.lambda0 ∧ 1 < agArgs.cfg.gain ∧ 0 ≤ agArgs.cfg.tol :=
  ⟨⟨fun _ _ => rfl, fun _ => rfl⟩, by decide, rfl, rfl, rfl, rfl, by decide +kernel, by decide +kernel, by decide +kernel⟩

example : LinearModel agArgs agFun (ent agCols) 0 := by
  intro q _ t ht
  simp only [agArgs, List.length_cons, List.length_nil] at ht ⊢
  interval_cases t <;> simp [agFun, agCols, ent, Finset.sum_range_succ] <;> ring

example : WellPosed agArgs agUser (fun _ => []) (ent agCols) where
  errs := Or.inl rfl
  errs0 := fun t _ => by
    have : elem1 agArgs.errs t = 1 / 2 := rfl
    rw [this]; norm_num
  prel := Or.inl rfl
  pabs := Or.inl rfl
  pabs0 := fun _ i _ => by
    have : elem1 (agArgs.pabs.getD [agArgs.cfg.pabs]) i = 1 / 8 := rfl
    rw [this]; norm_num
  pfix := fun l hl => by cases hl
  free := ⟨0, by decide, fun ⟨l, hl, _⟩ => by cases hl⟩
  cols := fun i hi _ => ⟨0, by decide, by
    have : i < 2 := hi
    interval_cases i <;> decide +kernel⟩
  gen := fun h => by cases h

end Npplus
