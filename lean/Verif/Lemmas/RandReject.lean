import Verif.Spec.Rand
import Mathlib.MeasureTheory.Constructions.BorelSpace.Real
import Mathlib.Probability.Independence.Integration

/-!
# The rejection method
-/

set_option linter.unusedSectionVars false
namespace Npplus
open MeasureTheory ProbabilityTheory Npplus.Randomx Npplus.Spec
open scoped ENNReal

namespace Rand

variable {Ω : Type} [mΩ : MeasurableSpace Ω] {μ : Measure Ω} {rng : Ω → Rng}

/-- what is known from the numbers in `S` -/
def sig (rng : Ω → Rng) (S : Set (ℕ × List ℕ)) : MeasurableSpace Ω :=
  ⨆ p ∈ S, MeasurableSpace.comap (fun ω => rng ω p.1 p.2) inferInstance

theorem sig_le (h : IdealRng μ rng) (S : Set (ℕ × List ℕ)) : sig rng S ≤ mΩ :=
  iSup₂_le fun p _ => (h.meas p.1 p.2).comap_le

theorem sig_mono {S T : Set (ℕ × List ℕ)} (hST : S ⊆ T) : sig rng S ≤ sig rng T :=
  iSup₂_le fun p hp => le_iSup₂_of_le p (hST hp) le_rfl

theorem meas_mem {S : Set (ℕ × List ℕ)} {k : ℕ} {idx : List ℕ} (hp : (k, idx) ∈ S) : Measurable[sig rng S] fun ω => rng ω k idx := by
  have : MeasurableSpace.comap (fun ω => rng ω k idx) inferInstance ≤ sig rng S :=
    le_iSup₂_of_le (f := fun (p : ℕ × List ℕ) (_ : p ∈ S) => MeasurableSpace.comap (fun ω => rng ω p.1 p.2) inferInstance) (k, idx) hp le_rfl
  exact (comap_measurable _).mono this le_rfl

theorem sig_indep (h : IdealRng μ rng) {S T : Set (ℕ × List ℕ)} (hST : Disjoint S T) : Indep (sig rng S) (sig rng T) μ := by
  unfold sig
  exact indep_iSup_of_disjoint (m := fun p : ℕ × List ℕ => MeasurableSpace.comap (fun ω => rng ω p.1 p.2) Real.measurableSpace)
    (fun p => (h.meas p.1 p.2).comap_le) ((iIndepFun_iff_iIndep _ _ _).1 h.indep) hST

theorem lintegral_mul (h : IdealRng μ rng) {S T : Set (ℕ × List ℕ)} (hST : Disjoint S T) {f g : Ω → ℝ≥0∞}
    (hf : Measurable[sig rng S] f) (hg : Measurable[sig rng T] g) : ∫⁻ ω, f ω * g ω ∂μ = (∫⁻ ω, f ω ∂μ) * ∫⁻ ω, g ω ∂μ :=
  lintegral_mul_eq_lintegral_mul_lintegral_of_independent_measurableSpace (sig_le h S) (sig_le h T) (sig_indep h hST) hf hg

/-! ### rows and points -/

/-- the point given by a row -/
def toPt (d : ℕ) (r : List ℝ) : Fin d → ℝ := fun j => r.getD j 0

/-- candidate `i` of call `k` -/
def cand (d : ℕ) (r : Rng) (k i : ℕ) : Fin d → ℝ := fun j => 2 * r k [i, (j : ℕ)] - 1

def row (d : ℕ) (r : Rng) (k i : ℕ) : List ℝ := (List.range d).map fun j => 2 * r k [i, j] - 1

theorem toPt_row (d : ℕ) (r : Rng) (k i : ℕ) : toPt d (row d r k i) = cand d r k i := by
  funext j
  simp [toPt, row, cand]

theorem sum_row (d : ℕ) (r : Rng) (k i : ℕ) : ((row d r k i).map fun t => t * t).sum = ∑ j, cand d r k i j ^ 2 := by
  have : ∀ n, ∀ g : ℕ → ℝ, (((List.range n).map g).map fun t => t * t).sum = ∑ j : Fin n, g j ^ 2 := by
    intro n g
    induction n with
    | zero => simp
    | succ n ih =>
      rw [List.range_succ, List.map_append, List.map_append, List.sum_append, ih, Fin.sum_univ_castSucc]
      simp [pow_two]
  exact this d _

/-- product of `f i` of the rows -/
noncomputable def prodf {d : ℕ} : (ℕ → (Fin d → ℝ) → ℝ≥0∞) → List (List ℝ) → ℝ≥0∞
  | _, [] => 1
  | f, r :: p => f 0 (toPt d r) * prodf (fun n => f (n + 1)) p

theorem prodf_append {d : ℕ} : ∀ (p q : List (List ℝ)) (f : ℕ → (Fin d → ℝ) → ℝ≥0∞),
    prodf f (p ++ q) = prodf f p * prodf (fun n => f (n + p.length)) q
  | [], q, f => by simp [prodf]
  | r :: p, q, f => by
    rw [List.cons_append, prodf, prodf_append p q, prodf, mul_assoc]
    congr 3

theorem prodf_one {d : ℕ} : ∀ p : List (List ℝ), prodf (fun (_ : ℕ) (_ : Fin d → ℝ) => 1) p = 1
  | [] => rfl
  | r :: p => by rw [prodf, one_mul, prodf_one p]

/-- accepted rows among the candidates `i, …, i + m - 1` -/
noncomputable def accL (d : ℕ) (r : Rng) (k : ℕ) : ℕ → ℕ → List (List ℝ)
  | _, 0 => []
  | i, m + 1 => open Classical in if cand d r k i ∈ ball d then row d r k i :: accL d r k (i + 1) m else accL d r k (i + 1) m

theorem accL_eq (d : ℕ) (r : Rng) (k : ℕ) : ∀ m i, accL d r k i m =
    ((List.range' i m).map (row d r k)).filter fun x => decide ((x.map fun t => t * t).sum < 1)
  | 0, i => rfl
  | m + 1, i => by
    rw [List.range'_succ, List.map_cons, List.filter_cons, accL, accL_eq d r k m (i + 1)]
    by_cases hb : cand d r k i ∈ ball d
    · rw [if_pos hb, if_pos (by rw [decide_eq_true_eq, sum_row]; exact hb)]
    · rw [if_neg hb, if_neg (by rw [decide_eq_true_eq, sum_row]; exact hb)]

noncomputable def mOf (fac : ℝ) (nm : ℤ) : ℕ := ⌊((nm : ℝ) + 5 * Real.sqrt nm) * fac⌋₊

theorem reject_step (r : Rng) (d : ℕ) (fac : ℝ) (fuel k : ℕ) (nm : ℤ) (p : List (List ℝ)) (h : 0 < nm) :
    reject r d fac (fuel + 1) k nm p = reject r d fac fuel (k + 1) (nm - (accL d r k 0 (mOf fac nm)).length) (p ++ accL d r k 0 (mOf fac nm)) := by
  rw [reject, if_pos h, accL_eq, ← List.range_eq_range']
  rfl

theorem reject_acc (r : Rng) (d : ℕ) (fac : ℝ) : ∀ (fuel k : ℕ) (nm : ℤ) (p : List (List ℝ)),
    reject r d fac fuel k nm p = (reject r d fac fuel k nm []).map (p ++ ·)
  | 0, k, nm, p => by
    rw [reject, reject]; split_ifs <;> simp
  | fuel + 1, k, nm, p => by
    by_cases h : 0 < nm
    · rw [reject_step _ _ _ _ _ _ _ h, reject_step _ _ _ _ _ _ _ h, reject_acc r d fac fuel, reject_acc r d fac fuel _ _ ([] ++ _)]
      rw [Option.map_map]
      congr 1
      funext x
      simp
    · rw [reject, if_neg h, reject, if_neg h]; simp

/-- the value of `f` on the result; 0 when there is none -/
noncomputable def V (d : ℕ) (fac : ℝ) (fuel k : ℕ) (nm : ℤ) (f : ℕ → (Fin d → ℝ) → ℝ≥0∞) (r : Rng) : ℝ≥0∞ :=
  match reject r d fac fuel k nm [] with
  | none => 0
  | some p => prodf f p

/-- the same, when the candidates `i, …, i + m - 1` of call `k` are left -/
noncomputable def G (d : ℕ) (fac : ℝ) (fuel k m i : ℕ) (nm : ℤ) (f : ℕ → (Fin d → ℝ) → ℝ≥0∞) (r : Rng) : ℝ≥0∞ :=
  prodf f (accL d r k i m) * V d fac fuel (k + 1) (nm - (accL d r k i m).length) (fun n => f (n + (accL d r k i m).length)) r

theorem V_zero (d : ℕ) (fac : ℝ) (k : ℕ) (nm : ℤ) (f : ℕ → (Fin d → ℝ) → ℝ≥0∞) (r : Rng) :
    V d fac 0 k nm f r = if 0 < nm then 0 else 1 := by
  unfold V
  rw [reject]
  split_ifs <;> rfl

theorem V_succ (d : ℕ) (fac : ℝ) (fuel k : ℕ) (nm : ℤ) (f : ℕ → (Fin d → ℝ) → ℝ≥0∞) (r : Rng) :
    V d fac (fuel + 1) k nm f r = if 0 < nm then G d fac fuel k (mOf fac nm) 0 nm f r else 1 := by
  split_ifs with h
  · unfold G V
    rw [reject_step _ _ _ _ _ _ _ h, List.nil_append, reject_acc]
    cases reject r d fac fuel (k + 1) (nm - (accL d r k 0 (mOf fac nm)).length) [] with
    | none => simp
    | some p => simp only [Option.map_some]; rw [prodf_append]
  · unfold V
    rw [reject, if_neg h]
    rfl

theorem G_zero (d : ℕ) (fac : ℝ) (fuel k i : ℕ) (nm : ℤ) (f : ℕ → (Fin d → ℝ) → ℝ≥0∞) (r : Rng) :
    G d fac fuel k 0 i nm f r = V d fac fuel (k + 1) nm f r := by
  unfold G
  simp [accL, prodf]

open Classical in
theorem G_succ (d : ℕ) (fac : ℝ) (fuel k m i : ℕ) (nm : ℤ) (f : ℕ → (Fin d → ℝ) → ℝ≥0∞) (r : Rng) :
    G d fac fuel k (m + 1) i nm f r =
      (ball d).indicator (f 0) (cand d r k i) * G d fac fuel k m (i + 1) (nm - 1) (fun n => f (n + 1)) r +
        (ball d)ᶜ.indicator 1 (cand d r k i) * G d fac fuel k m (i + 1) nm f r := by
  by_cases hb : cand d r k i ∈ ball d
  · rw [Set.indicator_of_mem hb, Set.indicator_of_notMem (by simpa using hb), zero_mul, add_zero]
    unfold G
    rw [accL, if_pos hb, prodf, toPt_row, List.length_cons, mul_assoc]
    congr 2
    have e1 : nm - ((accL d r k (i + 1) m).length + 1 : ℕ) = nm - 1 - (accL d r k (i + 1) m).length := by push_cast; ring
    have e2 : (fun n => f (n + ((accL d r k (i + 1) m).length + 1))) = fun n => f (n + (accL d r k (i + 1) m).length + 1) := by
      funext n; rw [add_assoc]
    rw [e1, e2]
  · rw [Set.indicator_of_notMem hb, Set.indicator_of_mem (by simpa using hb), zero_mul, zero_add, Pi.one_apply, one_mul]
    unfold G
    rw [accL, if_neg hb]

/-! ### measurability -/

/-- numbers of call `k` from candidate `i` on, and of all later calls -/
def later (k i : ℕ) : Set (ℕ × List ℕ) := {p | (p.1 = k ∧ i ≤ p.2.headD 0) ∨ k < p.1}

/-- numbers of candidate `i` -/
def one (k i : ℕ) : Set (ℕ × List ℕ) := {p | p.1 = k ∧ p.2.headD 0 = i}

theorem disj (k i : ℕ) : Disjoint (one k i) (later k (i + 1)) := by
  rw [Set.disjoint_left]
  rintro p ⟨h1, h2⟩ (⟨_, h3⟩ | h3) <;> omega

theorem one_sub (k i : ℕ) : one k i ⊆ later k i := fun p h => .inl ⟨h.1, by rw [h.2]⟩

theorem later_mono (k i : ℕ) : later k (i + 1) ⊆ later k i := by
  rintro p (⟨h1, h2⟩ | h)
  · exact .inl ⟨h1, by omega⟩
  · exact .inr h

theorem later_next (k i : ℕ) : later (k + 1) 0 ⊆ later k i := by
  rintro p (⟨h1, h2⟩ | h)
  · exact .inr (by omega)
  · exact .inr (by omega)

theorem measurableSet_ball (d : ℕ) : MeasurableSet (ball d) := by
  have : Measurable fun x : Fin d → ℝ => ∑ i, x i ^ 2 := by fun_prop
  exact this measurableSet_Iio

theorem meas_cand (d k i : ℕ) : Measurable[sig rng (one k i)] fun ω => cand d (rng ω) k i := by
  refine @measurable_pi_lambda _ _ _ (sig rng (one k i)) _ _ fun j => ?_
  have : Measurable[sig rng (one k i)] fun ω => rng ω k [i, (j : ℕ)] := meas_mem ⟨rfl, rfl⟩
  exact (this.const_mul 2).sub_const 1

theorem meas_G_of_V {d : ℕ} {fac : ℝ} {fuel k : ℕ}
    (hV : ∀ nm (f : ℕ → (Fin d → ℝ) → ℝ≥0∞), (∀ n, Measurable (f n)) → Measurable[sig rng (later (k + 1) 0)] fun ω => V d fac fuel (k + 1) nm f (rng ω)) :
    ∀ (m i : ℕ) (nm : ℤ) (f : ℕ → (Fin d → ℝ) → ℝ≥0∞), (∀ n, Measurable (f n)) →
      Measurable[sig rng (later k i)] fun ω => G d fac fuel k m i nm f (rng ω)
  | 0, i, nm, f, hf => by
    simp only [G_zero]
    exact (hV nm f hf).mono (sig_mono (later_next k i)) le_rfl
  | m + 1, i, nm, f, hf => by
    simp only [G_succ]
    have h1 := (meas_G_of_V hV m (i + 1) (nm - 1) (fun n => f (n + 1)) fun n => hf _).mono (sig_mono (later_mono k i)) le_rfl
    have h2 := (meas_G_of_V hV m (i + 1) nm f hf).mono (sig_mono (later_mono k i)) le_rfl
    have hc := (meas_cand (rng := rng) d k i).mono (sig_mono (one_sub k i)) le_rfl
    have h3 : Measurable[sig rng (later k i)] fun ω => (ball d).indicator (f 0) (cand d (rng ω) k i) :=
      ((hf 0).indicator (measurableSet_ball d)).comp hc
    have h4 : Measurable[sig rng (later k i)] fun ω => (ball d)ᶜ.indicator (1 : (Fin d → ℝ) → ℝ≥0∞) (cand d (rng ω) k i) :=
      (measurable_one.indicator (measurableSet_ball d).compl).comp hc
    exact (h3.mul h1).add (h4.mul h2)

theorem meas_V {d : ℕ} {fac : ℝ} : ∀ (fuel k : ℕ) (nm : ℤ) (f : ℕ → (Fin d → ℝ) → ℝ≥0∞), (∀ n, Measurable (f n)) →
    Measurable[sig rng (later k 0)] fun ω => V d fac fuel k nm f (rng ω)
  | 0, k, nm, f, hf => by
    simp only [V_zero]
    exact measurable_const
  | fuel + 1, k, nm, f, hf => by
    simp only [V_succ]
    split_ifs with h
    · exact meas_G_of_V (fun nm f hf => meas_V fuel (k + 1) nm f hf) _ _ _ _ hf
    · exact measurable_const

/-! ### the expectation -/

/-- probability of acceptance and the accepted distribution: the two facts about one candidate that are used -/
structure OneCand (d : ℕ) (μ : Measure Ω) (rng : Ω → Rng) (p q : ℝ≥0∞) : Prop where
  acc : ∀ (k i : ℕ) (g : (Fin d → ℝ) → ℝ≥0∞), Measurable g →
    ∫⁻ ω, (ball d).indicator g (cand d (rng ω) k i) ∂μ = p * ∫⁻ x, g x ∂(cond volume (ball d))
  rej : ∀ k i : ℕ, ∫⁻ ω, (ball d)ᶜ.indicator 1 (cand d (rng ω) k i) ∂μ = q
  sum : p + q = 1
  one : cond volume (ball d) Set.univ = 1

/-- one pass: from the probabilities `C` to have returned after the pass -/
noncomputable def cst (p q : ℝ≥0∞) (C : ℤ → ℝ≥0∞) : ℕ → ℤ → ℝ≥0∞
  | 0, nm => C nm
  | m + 1, nm => p * cst p q C m (nm - 1) + q * cst p q C m nm

/-- probability to return within `fuel` passes -/
noncomputable def Cf (p q : ℝ≥0∞) (fac : ℝ) : ℕ → ℤ → ℝ≥0∞
  | 0, nm => if 0 < nm then 0 else 1
  | fuel + 1, nm => if 0 < nm then cst p q (Cf p q fac fuel) (mOf fac nm) nm else 1

variable {d : ℕ} {fac : ℝ} {p q : ℝ≥0∞}

theorem lint_G (h : IdealRng μ rng) (hc : OneCand d μ rng p q) {fuel k : ℕ} {C : ℤ → ℝ≥0∞}
    (hV : ∀ nm (f : ℕ → (Fin d → ℝ) → ℝ≥0∞), (∀ n, Measurable (f n)) → (∀ n, nm.toNat ≤ n → f n = 1) →
      ∫⁻ ω, V d fac fuel (k + 1) nm f (rng ω) ∂μ = C nm * ∏ n ∈ Finset.range nm.toNat, ∫⁻ x, f n x ∂(cond volume (ball d))) :
    ∀ (m i : ℕ) (nm : ℤ) (f : ℕ → (Fin d → ℝ) → ℝ≥0∞), (∀ n, Measurable (f n)) → (∀ n, nm.toNat ≤ n → f n = 1) →
      ∫⁻ ω, G d fac fuel k m i nm f (rng ω) ∂μ = cst p q C m nm * ∏ n ∈ Finset.range nm.toNat, ∫⁻ x, f n x ∂(cond volume (ball d))
  | 0, i, nm, f, hf, h1 => by
    simp only [G_zero, cst]
    exact hV nm f hf h1
  | m + 1, i, nm, f, hf, h1 => by
    have mG := meas_G_of_V (rng := rng) (d := d) (fac := fac) (fuel := fuel) (k := k) (fun nm f hf => meas_V fuel (k + 1) nm f hf)
    simp only [G_succ, cst]
    have hcd := meas_cand (rng := rng) d k i
    have m3 : Measurable[sig rng (one k i)] fun ω => (ball d).indicator (f 0) (cand d (rng ω) k i) :=
      ((hf 0).indicator (measurableSet_ball d)).comp hcd
    have m4 : Measurable[sig rng (one k i)] fun ω => (ball d)ᶜ.indicator (1 : (Fin d → ℝ) → ℝ≥0∞) (cand d (rng ω) k i) :=
      (measurable_one.indicator (measurableSet_ball d).compl).comp hcd
    have m1 := mG m (i + 1) (nm - 1) (fun n => f (n + 1)) fun n => hf _
    have m2 := mG m (i + 1) nm f hf
    have hm : Measurable fun ω => (ball d).indicator (f 0) (cand d (rng ω) k i) *
        G d fac fuel k m (i + 1) (nm - 1) (fun n => f (n + 1)) (rng ω) :=
      (m3.mono (sig_le h _) le_rfl).mul (m1.mono (sig_le h _) le_rfl)
    rw [lintegral_add_left hm,
      lintegral_mul h (disj k i) m3 m1, lintegral_mul h (disj k i) m4 m2, hc.acc k i (f 0) (hf 0), hc.rej k i,
      lint_G h hc hV m (i + 1) nm f hf h1,
      lint_G h hc hV m (i + 1) (nm - 1) (fun n => f (n + 1)) (fun n => hf _) (fun n hn => h1 _ (by omega)), add_mul]
    congr 1
    · by_cases hn : 0 < nm
      · obtain ⟨n, hn'⟩ : ∃ n : ℕ, nm.toNat = n + 1 := ⟨nm.toNat - 1, by omega⟩
        have : (nm - 1).toNat = n := by omega
        rw [hn', this, Finset.prod_range_succ']
        ring
      · have e1 : nm.toNat = 0 := by omega
        have e2 : (nm - 1).toNat = 0 := by omega
        have hone : ∫⁻ x, f 0 x ∂(cond volume (ball d)) = 1 := by
          rw [h1 0 (by omega)]; simp only [Pi.one_apply, lintegral_one]; exact hc.one
        rw [e1, e2, hone]
        simp
    · ring

theorem lint_V (h : IdealRng μ rng) (hc : OneCand d μ rng p q) : ∀ (fuel k : ℕ) (nm : ℤ) (f : ℕ → (Fin d → ℝ) → ℝ≥0∞),
    (∀ n, Measurable (f n)) → (∀ n, nm.toNat ≤ n → f n = 1) →
      ∫⁻ ω, V d fac fuel k nm f (rng ω) ∂μ = Cf p q fac fuel nm * ∏ n ∈ Finset.range nm.toNat, ∫⁻ x, f n x ∂(cond volume (ball d))
  | 0, k, nm, f, hf, h1 => by
    have := h.prob
    simp only [V_zero, Cf]
    split_ifs with hn
    · simp
    · have : nm.toNat = 0 := by omega
      rw [this]; simp
  | fuel + 1, k, nm, f, hf, h1 => by
    have := h.prob
    simp only [V_succ, Cf]
    split_ifs with hn
    · exact lint_G h hc (fun nm f hf h1 => lint_V h hc fuel (k + 1) nm f hf h1) _ _ _ _ hf h1
    · have : nm.toNat = 0 := by omega
      rw [this]; simp

end Rand
end Npplus
