import Verif.Model.ModelFit
import Verif.Props.LevmarCov
import Verif.Props.Regress

/-!
# C49: ModelFit
-/

set_option linter.unusedSectionVars false
namespace Npplus
open Npplus.Spec

section call
variable {P A V : Type}

/-- **C49**, plain functions: `model(args)` is `f(model.p, args)`, exceptions included. -/
theorem C49_call_plain (f : P → A → Except PyErr V) (p : P) (pcov : List (List ℝ)) (chi2 : ℝ) (ndof : ℤ) (a : A) :
    (ModelFit.new (.plain f) p pcov chi2 ndof).p = p ∧ (ModelFit.new (.plain f) p pcov chi2 ndof).call a = f p a ∧
    (ModelFit.new (.plain f) p pcov chi2 ndof (some false)).call a = f p a := ⟨rfl, rfl, rfl⟩

/-- **C49**, generator functions: `model(args)` is the first value yielded by `f(model.p, args)`. -/
theorem C49_call_generator (f : P → A → List V) (p : P) (pcov : List (List ℝ)) (chi2 : ℝ) (ndof : ℤ) (a : A) (v : V)
    (l : List V) (h : f p a = v :: l) :
    (ModelFit.new (.gen f) p pcov chi2 ndof).p = p ∧ (ModelFit.new (.gen f) p pcov chi2 ndof).call a = .ok v ∧
    (ModelFit.new (.gen f) p pcov chi2 ndof (some true)).call a = .ok v := by
  refine ⟨rfl, ?_, ?_⟩
  · change nextOf (f p a) = _; rw [h]; rfl
  · change nextOf (f p a) = _; rw [h]; rfl

example : (ModelFit.new (P := ℕ) (A := ℕ) (.gen fun p a => [p + a, p * a]) 3 [] 0 0).call 4 = .ok 7 := rfl

/-- **C49**: assigning another value to `model.p` does not change the model function, which keeps using the fitted
parameters. -/
theorem C49_call_after_assignment (f : PyFun P A V) (p q : P) (pcov : List (List ℝ)) (chi2 : ℝ) (ndof : ℤ)
    (g : Option Bool) (a : A) : ({ ModelFit.new f p pcov chi2 ndof g with p := q } : ModelFit P A V).call a =
      (ModelFit.new f p pcov chi2 ndof g).call a := rfl

theorem diagOf_get (m : List (List ℝ)) (i : ℕ) (hi : i < m.length) : (diagOf m).getD i 0 = ent m i i := by
  unfold diagOf
  rw [List.getD_eq_getElem _ _ (by simpa using hi)]
  simp [ent]

theorem perr_get (m : ModelFit P A V) (i : ℕ) (hi : i < m.pcov.length) :
    m.perr.getD i 0 = Real.sqrt (ent m.pcov i i) := by
  unfold ModelFit.perr
  rw [← diagOf_get _ i hi]
  have hl : i < (diagOf m.pcov).length := by simpa [diagOf] using hi
  rw [List.getD_eq_getElem _ _ (by simpa using hl), List.getD_eq_getElem _ _ hl, List.getElem_map]

theorem chi2pcov_get (m : ModelFit P A V) (i j : ℕ) : ent m.chi2pcov i j = m.chi2 * ent m.pcov i j := by
  unfold ModelFit.chi2pcov ent
  have h1 : (m.pcov.map fun r => r.map (m.chi2 * ·)).getD i [] = (m.pcov.getD i []).map (m.chi2 * ·) := by
    rw [List.getD_eq_getElem?_getD, List.getD_eq_getElem?_getD, List.getElem?_map]
    cases m.pcov[i]? <;> simp
  rw [h1]
  generalize m.pcov.getD i [] = l
  rw [List.getD_eq_getElem?_getD, List.getD_eq_getElem?_getD, List.getElem?_map]
  cases l[j]? <;> simp

theorem chiperr_get (m : ModelFit P A V) (i : ℕ) (hi : i < m.pcov.length) :
    m.chiperr.getD i 0 = Real.sqrt (m.chi2 * ent m.pcov i i) := by
  unfold ModelFit.chiperr
  have hl2 : i < m.chi2pcov.length := by unfold ModelFit.chi2pcov; simpa using hi
  have hl : i < (diagOf m.chi2pcov).length := by simpa [diagOf] using hl2
  rw [← chi2pcov_get, ← diagOf_get _ i hl2]
  rw [List.getD_eq_getElem _ _ (by simpa using hl), List.getD_eq_getElem _ _ hl, List.getElem_map]

/-- **C49**, standard deviations: if the variances (the diagonal of `pcov`) and `chi2` are not negative, `perr` are
the non-negative numbers whose squares are the variances, `chi2pcov` is `chi2*pcov`, and `chiperr` are the standard
deviations of `chi2pcov`, namely `sqrt(chi2)*perr`. -/
theorem C49_errors (m : ModelFit P A V) (hv : ∀ i < m.pcov.length, 0 ≤ ent m.pcov i i) (hc : 0 ≤ m.chi2) :
    m.perr.length = m.pcov.length ∧ m.chiperr.length = m.pcov.length ∧
    (∀ i j, ent m.chi2pcov i j = m.chi2 * ent m.pcov i j) ∧
    ∀ i < m.pcov.length, 0 ≤ m.perr.getD i 0 ∧ m.perr.getD i 0 ^ 2 = ent m.pcov i i ∧
      0 ≤ m.chiperr.getD i 0 ∧ m.chiperr.getD i 0 ^ 2 = ent m.chi2pcov i i ∧
      m.chiperr.getD i 0 = Real.sqrt m.chi2 * m.perr.getD i 0 := by
  refine ⟨by simp [ModelFit.perr, diagOf], by simp [ModelFit.chiperr, ModelFit.chi2pcov, diagOf], chi2pcov_get m, fun i hi => ?_⟩
  rw [perr_get m i hi, chiperr_get m i hi, chi2pcov_get]
  exact ⟨Real.sqrt_nonneg _, Real.sq_sqrt (hv i hi), Real.sqrt_nonneg _, Real.sq_sqrt (mul_nonneg hc (hv i hi)),
    Real.sqrt_mul hc _⟩

end call

section levmar
variable {A : LmArgs ℝ} {F : UserF ℝ} {solve : List (List ℝ) → List ℝ → Except PyErr (List ℝ)}
  {V : List ℝ → List ℝ} {D : List ℝ → List (List ℝ)}

/-- **C49** for levmar: the variances of every fit it returns are not negative. -/
theorem C49_levmar_variances (hs : SolveLen solve) (hV : PureF F V A.data.length)
    (hD : F.isgen = true → PureD F D A.data.length)
    {inv : List (List ℝ) → Except PyErr (List (List ℝ))} (hinv : InvOK inv) {fo fi : ℕ} {r : LmFit ℝ}
    (hr : (levmar A F solve inv fo fi).1 = .ok r) : ∀ i < A.p0.length, 0 ≤ ent r.pcov i i := by
  obtain ⟨-, h2, q, G, -, -, h3⟩ := C48_pcov hs hV hD hinv hr
  intro j hj
  by_cases hf : Fixed A j
  · rw [h2 j j hj hj (Or.inl hf)]
  set n := A.p0.length
  set x : ℕ → ℝ := fun k => ent r.pcov k j with hx
  -- `N x = e_j` on the free parameters
  have h4 : ent r.pcov j j = ∑ i ∈ Finset.range n, x i * ∑ k ∈ Finset.range n, normalAt A G i k * x k := by
    have : ∀ i ∈ Finset.range n, x i * ∑ k ∈ Finset.range n, normalAt A G i k * x k = if i = j then x j else 0 := by
      intro i hi
      rw [Finset.mem_range] at hi
      by_cases hfi : Fixed A i
      · have : x i = 0 := h2 i j hi hj (Or.inl hfi)
        rw [this, zero_mul, if_neg]
        rintro rfl
        exact hf hfi
      · rw [h3 i j hi hj hfi hf]
        split_ifs with hij
        · rw [hij, mul_one]
        · rw [mul_zero]
    rw [Finset.sum_congr rfl this, Finset.sum_ite_eq', if_pos (by simpa using hj)]
  have h5 : ∑ i ∈ Finset.range n, x i * ∑ k ∈ Finset.range n, normalAt A G i k * x k =
      ∑ t ∈ Finset.range A.data.length, ((∑ i ∈ Finset.range n, x i * G i t) / elem1 A.errs t) ^ 2 := by
    have : ∀ t, ((∑ i ∈ Finset.range n, x i * G i t) / elem1 A.errs t) ^ 2 =
        ∑ i ∈ Finset.range n, ∑ k ∈ Finset.range n, x i * (G i t * G k t / elem1 A.errs t ^ 2 * x k) := by
      intro t
      rw [div_pow, sq, Finset.sum_mul_sum, Finset.sum_div]
      refine Finset.sum_congr rfl fun i _ => ?_
      rw [Finset.sum_div]
      refine Finset.sum_congr rfl fun k _ => ?_
      ring
    simp only [this]
    rw [Finset.sum_comm]
    refine Finset.sum_congr rfl fun i _ => ?_
    rw [Finset.sum_comm, Finset.mul_sum]
    refine Finset.sum_congr rfl fun k _ => ?_
    unfold normalAt
    rw [Finset.sum_mul, Finset.mul_sum]
  rw [h4, h5]
  exact Finset.sum_nonneg fun _ _ => sq_nonneg _

/-- **C49** for levmar: `perr**2` and `chiperr**2` are the diagonals of `pcov` and of `chi2*pcov` for every fit it
returns. -/
theorem C49_levmar_errors {B W : Type} (f : PyFun (List ℝ) B W) (hs : SolveLen solve) (hV : PureF F V A.data.length)
    (hD : F.isgen = true → PureD F D A.data.length)
    {inv : List (List ℝ) → Except PyErr (List (List ℝ))} (hinv : InvOK inv) (htol : 0 ≤ A.cfg.tol) {fo fi : ℕ} {r : LmFit ℝ}
    (hr : (levmar A F solve inv fo fi).1 = .ok r) : ∀ i < A.p0.length,
      (r.model f).perr.getD i 0 ^ 2 = ent r.pcov i i ∧ (r.model f).chiperr.getD i 0 ^ 2 = r.chi2 * ent r.pcov i i := by
  have hc : 0 ≤ r.chi2 := by
    rw [(C45_no_worse hs hV htol hr).2.2.2.2.1]
    refine div_nonneg (lmChisq_nonneg A V _) ?_
    exact_mod_cast C48_fewer_data hs hV hD hinv hr
  have hl := (C48_pcov hs hV hD hinv hr).1.1
  have hv := C49_levmar_variances hs hV hD hinv hr
  intro i hi
  have := (C49_errors (r.model f) (fun i hi => hv i (by rw [← hl]; exact hi)) hc).2.2.2 i (by rw [show (r.model f).pcov = r.pcov from rfl, hl]; exact hi)
  refine ⟨this.2.1, ?_⟩
  rw [this.2.2.2.1, chi2pcov_get]
  rfl

end levmar

section reg
variable {data errs : NdArr ℝ} {mdl : List (NdArr ℝ)} {rcond : ℝ}
  {svd : ∀ nc N, Matrix (Fin nc) (Fin N) ℝ → Except PyErr (SVD ℝ nc N)} {r : RegFit ℝ mdl.length data.shape.prod}

theorem ent_ofFn {n : ℕ} (M : Matrix (Fin n) (Fin n) ℝ) (i j : Fin n) :
    ent (List.ofFn fun i => List.ofFn (M i)) i j = M i j := by
  have h : (List.ofFn fun i => List.ofFn (M i)).getD i [] = List.ofFn (M i) := by
    rw [List.getD_eq_getElem _ _ (by simp), List.getElem_ofFn]
  unfold ent
  rw [h, List.getD_eq_getElem _ _ (by simp), List.getElem_ofFn]

/-- **C49** for regress: the model evaluates to the fit, and `perr`, `chiperr` are the square roots of the diagonals. -/
theorem C49_regress (h : regress svd data mdl errs rcond = .ok r) (hsvd : ∀ nc N m d, svd nc N m = .ok d → IsSVD m d) :
    r.model.p = r.p ∧ r.model.call () = .ok r.fit ∧ ∀ i : Fin mdl.length,
      r.model.perr.getD i 0 ^ 2 = r.pcov i i ∧ r.model.chiperr.getD i 0 ^ 2 = r.chi2 * r.pcov i i := by
  refine ⟨rfl, rfl, ?_⟩
  have hp := (C42_pcov_general h hsvd).2.2
  have hlen : r.model.pcov.length = mdl.length := by simp [RegFit.model, ModelFit.new]
  have hc : 0 ≤ r.chi2 := by
    rw [C42_chi2 h hsvd]
    exact div_nonneg (Finset.sum_nonneg fun _ _ => sq_nonneg _) (le_max_of_le_right zero_le_one)
  intro i
  have := (C49_errors r.model (fun k hk => by
    rw [hlen] at hk
    exact (ent_ofFn r.pcov ⟨k, hk⟩ ⟨k, hk⟩).symm ▸ hp ⟨k, hk⟩) hc).2.2.2 i (by rw [hlen]; exact i.2)
  have e : ent r.model.pcov i i = r.pcov i i := ent_ofFn r.pcov i i
  refine ⟨by rw [this.2.1, e], ?_⟩
  rw [this.2.2.2.1, chi2pcov_get, e]
  rfl

end reg
end Npplus
