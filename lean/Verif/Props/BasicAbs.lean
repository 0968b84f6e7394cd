import Verif.Props.BasicCat

/-!
# C62: `abs_`
-/

set_option linter.unusedSectionVars false

namespace Npplus
open Spec Basic Finset

theorem sum_getElem {α M : Type} [AddCommMonoid M] (l : List α) (f : α → M) (g : ℕ → M)
    (h : ∀ t (ht : t < l.length), g t = f l[t]) : ∑ t ∈ range l.length, g t = (l.map f).sum := by
  induction l generalizing g with
  | nil => simp
  | cons a l ih =>
    rw [List.length_cons, sum_range_succ', List.map_cons, List.sum_cons, add_comm]
    congr 1
    · exact h 0 (by simp)
    · exact ih (fun t => g (t + 1)) fun t ht => h (t + 1) (by simpa using ht)

/-- All elements of the sum inside `abs_`. -/
theorem abs_unfold {K : Type} [CommSemiring K] {absolute conj sqrt : K → K} {a b : NdArr K} {args : List (NdArr K)} {sh : List ℕ}
    (h : Common ((a :: b :: args).map (·.shape)) sh) (hz : ∀ c ∈ a :: b :: args, ∀ j, rdim sh j = 0 → rdim c.shape j = 0) :
    ∃ r, abs_ absolute conj sqrt a (b :: args) = .ok r ∧ r.shape = sh ∧ ∀ idx, ValidIdx sh idx →
      r.get idx = sqrt (((a :: b :: args).map fun c => conj (bget c idx) * bget c idx).sum) := by
  obtain ⟨r, h1, h2, h3⟩ := C60_stack (args := a :: b :: args) (axis := 0) (k := 0) (by simp) h hz ⟨by omega, .inl rfl⟩
  refine ⟨(sumAx0 (r.map fun t => conj t * t)).map sqrt, ?_, ?_, fun idx hv => ?_⟩
  · unfold abs_
    simp only [bind, Except.bind, pure, Except.pure]
    rw [if_neg (by simp), h1]
  · show r.shape.drop 1 = sh
    rw [h2]; rfl
  · show sqrt (∑ i ∈ range (r.shape.getD 0 0), conj (r.get (i :: idx)) * r.get (i :: idx)) = _
    rw [h2]
    congr 1
    refine sum_getElem (a :: b :: args) (fun c => conj (bget c idx) * bget c idx) _ fun t ht => ?_
    have := h3 t ht idx hv
    rw [List.insertIdx_zero] at this
    rw [this]

/-- **C62** — `abs_` of any number of real arrays: nonnegative, and its square is the sum of the squares (with one
argument this is the absolute value). -/
theorem C62_real {a : NdArr ℝ} {args : List (NdArr ℝ)} {sh : List ℕ} (h : Common ((a :: args).map (·.shape)) sh)
    (hz : ∀ c ∈ a :: args, ∀ j, rdim sh j = 0 → rdim c.shape j = 0) :
    ∃ r, absReal a args = .ok r ∧ r.shape = sh ∧ ∀ idx, ValidIdx sh idx →
      0 ≤ r.get idx ∧ r.get idx ^ 2 = ((a :: args).map fun c => bget c idx ^ 2).sum := by
  cases args with
  | nil =>
    have : a.shape = sh := (common_single a.shape).unique h
    subst this
    refine ⟨a.map (|·|), rfl, rfl, fun idx hv => ⟨abs_nonneg _, ?_⟩⟩
    simp only [List.map_cons, List.map_nil, List.sum_cons, List.sum_nil, add_zero, bget_self hv]
    exact sq_abs _
  | cons b args =>
    obtain ⟨r, h1, h2, h3⟩ := abs_unfold (absolute := (|·|)) (conj := id) (sqrt := Real.sqrt) h hz
    refine ⟨r, h1, h2, fun idx hv => ?_⟩
    rw [h3 idx hv]
    refine ⟨Real.sqrt_nonneg _, ?_⟩
    have e : ((a :: b :: args).map fun c => id (bget c idx) * bget c idx) = (a :: b :: args).map fun c => bget c idx ^ 2 :=
      List.map_congr_left fun c _ => (sq _).symm
    rw [e, Real.sq_sqrt]
    exact List.sum_nonneg (by simp only [List.mem_map]; rintro _ ⟨c, -, rfl⟩; exact sq_nonneg _)

/-- **C62** — with one argument, `abs_` is the absolute value; no conditions. -/
theorem C62_one (a : NdArr ℝ) : ∃ r, absReal a [] = .ok r ∧ r.shape = a.shape ∧ ∀ idx, r.get idx = |a.get idx| :=
  ⟨a.map (|·|), rfl, rfl, fun _ => rfl⟩

/-- **C62** — complex arrays: the (real) 2-norm of the moduli. -/
theorem C62_complex {a : NdArr ℂ} {args : List (NdArr ℂ)} {sh : List ℕ} (h : Common ((a :: args).map (·.shape)) sh)
    (hz : ∀ c ∈ a :: args, ∀ j, rdim sh j = 0 → rdim c.shape j = 0) :
    ∃ r, absComplex a args = .ok r ∧ r.shape = sh ∧ ∀ idx, ValidIdx sh idx →
      r.get idx = ((√((a :: args).map fun c => ‖bget c idx‖ ^ 2).sum : ℝ) : ℂ) := by
  cases args with
  | nil =>
    have : a.shape = sh := (common_single a.shape).unique h
    subst this
    refine ⟨a.map _, rfl, rfl, fun idx hv => ?_⟩
    show ((‖a.get idx‖ : ℝ) : ℂ) = _
    simp only [List.map_cons, List.map_nil, List.sum_cons, List.sum_nil, add_zero, bget_self hv]
    rw [Real.sqrt_sq (norm_nonneg _)]
  | cons b args =>
    obtain ⟨r, h1, h2, h3⟩ := abs_unfold (absolute := fun z : ℂ => ((‖z‖ : ℝ) : ℂ)) (conj := starRingEnd ℂ) (sqrt := fun z => z ^ (1 / 2 : ℂ)) h hz
    refine ⟨r, h1, h2, fun idx hv => ?_⟩
    rw [h3 idx hv]
    have e : ((a :: b :: args).map fun c => (starRingEnd ℂ) (bget c idx) * bget c idx).sum =
        ((((a :: b :: args).map fun c => ‖bget c idx‖ ^ 2).sum : ℝ) : ℂ) := by
      generalize (a :: b :: args) = l
      induction l with
      | nil => simp
      | cons c l ih =>
        rw [List.map_cons, List.sum_cons, ih, List.map_cons, List.sum_cons, Complex.conj_mul']
        push_cast; rfl
    have hnn : 0 ≤ ((a :: b :: args).map fun c => ‖bget c idx‖ ^ 2).sum :=
      List.sum_nonneg (by simp only [List.mem_map]; rintro _ ⟨c, -, rfl⟩; exact sq_nonneg _)
    rw [e, Real.sqrt_eq_rpow, Complex.ofReal_cpow hnn]
    norm_num

/-- **C62** — the order of the arguments does not matter. -/
theorem C62_order {a b : NdArr ℝ} {args brgs : List (NdArr ℝ)} {sh : List ℕ} (h : Common ((a :: args).map (·.shape)) sh)
    (hz : ∀ c ∈ a :: args, ∀ j, rdim sh j = 0 → rdim c.shape j = 0) (hp : (a :: args).Perm (b :: brgs)) :
    ∃ r r', absReal a args = .ok r ∧ absReal b brgs = .ok r' ∧ r.Same r' := by
  obtain ⟨r, h1, h2, h3⟩ := C62_real h hz
  obtain ⟨r', h1', h2', h3'⟩ := C62_real (h.perm (hp.map _)) (fun c hc => hz c (hp.mem_iff.mpr hc))
  refine ⟨r, r', h1, h1', h2.trans h2'.symm, fun idx hv => ?_⟩
  rw [h2] at hv
  obtain ⟨p1, p2⟩ := h3 idx hv
  obtain ⟨q1, q2⟩ := h3' idx hv
  have : r.get idx ^ 2 = r'.get idx ^ 2 := by rw [p2, q2]; exact (hp.map _).sum_eq
  exact (sq_eq_sq₀ p1 q1).mp this

/-- `abs_(3, 4) = 5`, scalars. -/
example : ∃ r, absReal ⟨[], fun _ => 3⟩ [⟨[], fun _ => 4⟩] = .ok r ∧ r.get [] = 5 := by
  obtain ⟨r, h1, h2, h3⟩ := C62_real (a := ⟨[], fun _ => 3⟩) (args := [⟨[], fun _ => 4⟩]) (sh := []) (bcastShape_ok (by decide)) (by
    intro c _ j hj; simp [rdim] at hj)
  obtain ⟨p1, p2⟩ := h3 [] ⟨rfl, by simp⟩
  refine ⟨r, h1, ?_⟩
  have : r.get [] ^ 2 = 5 ^ 2 := by
    rw [p2]
    show ((3 : ℝ) ^ 2 + ((4 : ℝ) ^ 2 + 0)) = 5 ^ 2
    norm_num
  exact (sq_eq_sq₀ p1 (by norm_num)).mp this

end Npplus
