import Verif.Lemmas.RandDet
import Verif.Props.Randomx
import Mathlib.MeasureTheory.Measure.Lebesgue.EqHaar

/-!
# The rejection method returns a sample of the uniform distribution in the ball
-/

set_option linter.unusedSectionVars false
namespace Npplus
open MeasureTheory ProbabilityTheory Npplus.Randomx Npplus.Spec
open scoped ENNReal

namespace Rand

variable {Ω : Type} [mΩ : MeasurableSpace Ω] {μ : Measure Ω} {rng : Ω → Rng}

/-! ### one candidate -/

theorem lint_affine (d : ℕ) (F : (Fin d → ℝ) → ℝ≥0∞) (hF : Measurable F) :
    ∫⁻ u : Fin d → ℝ, F (fun j => 2 * u j - 1) = ENNReal.ofReal ((2 ^ d : ℝ)⁻¹) * ∫⁻ x, F x := by
  have h1 : ∫⁻ u : Fin d → ℝ, F (fun j => 2 * u j - 1) = ∫⁻ u : Fin d → ℝ, (fun y => F (y - fun _ => 1)) ((2 : ℝ) • u) := rfl
  rw [h1, ← lintegral_map (μ := volume) (f := fun y => F (y - fun _ => 1)) (hF.comp (measurable_id.sub_const _)) (measurable_const_smul (2 : ℝ)),
    Measure.map_addHaar_smul _ (by norm_num), lintegral_smul_measure, lintegral_sub_right_eq_self (f := F)]
  rw [Module.finrank_fin_fun, abs_of_pos (by positivity)]
  rfl

/-- probability of acceptance -/
noncomputable def pAcc (d : ℕ) : ℝ≥0∞ := ENNReal.ofReal ((2 ^ d : ℝ)⁻¹) * volume (ball d)

theorem oneCand (h : IdealRng μ rng) (d : ℕ) : OneCand d μ rng (pAcc d) (1 - pAcc d) ∧ pAcc d ≠ 0 := by
  have hp := h.prob
  have hacc : ∀ (k i : ℕ) (g : (Fin d → ℝ) → ℝ≥0∞), Measurable g →
      ∫⁻ ω, (ball d).indicator g (cand d (rng ω) k i) ∂μ = ENNReal.ofReal ((2 ^ d : ℝ)⁻¹) * ∫⁻ x in ball d, g x := by
    intro k i g hg
    have hgi : Measurable ((ball d).indicator g) := hg.indicator (measurableSet_ball d)
    have hm := map_Um h (fun j : Fin d => (k, [i, (j : ℕ)])) (by intro j j' e; simpa [Fin.ext_iff] using e)
    have e1 : ∫⁻ ω, (ball d).indicator g (cand d (rng ω) k i) ∂μ =
        ∫⁻ u, (ball d).indicator g (fun j => 2 * u j - 1) ∂(Um d) := by
      rw [← hm, lintegral_map (f := fun u => (ball d).indicator g (fun j => 2 * u j - 1))
        (hgi.comp (by fun_prop)) (measurable_pi_lambda _ fun j => h.meas _ _)]
      rfl
    rw [e1, Um_eq, ← lintegral_indicator (MeasurableSet.univ_pi fun _ => measurableSet_Ico), ← lintegral_indicator (measurableSet_ball d),
      ← lint_affine d _ hgi]
    congr 1
    funext u
    by_cases hb : (fun j => 2 * u j - 1) ∈ ball d
    · rw [Set.indicator_of_mem]
      intro j _
      have := abs_lt.1 (ball_sub d hb j)
      exact ⟨by linarith [this.1], by linarith [this.2]⟩
    · rw [Set.indicator_of_notMem hb]
      exact Set.indicator_apply_eq_zero.2 fun _ => by rw [Set.indicator_of_notMem hb]
  have hone : ∀ k i, μ {ω | cand d (rng ω) k i ∈ ball d} = pAcc d := by
    intro k i
    have hc : Measurable fun ω => cand d (rng ω) k i := (meas_cand d k i).mono (sig_le h _) le_rfl
    have := hacc k i 1 measurable_one
    simp only [Pi.one_apply, setLIntegral_one] at this
    rw [pAcc, ← this]
    exact (lintegral_indicator_one (hc (measurableSet_ball d))).symm
  have hple : pAcc d ≤ 1 := by rw [← hone 0 0]; exact prob_le_one
  refine ⟨⟨fun k i g hg => ?_, fun k i => ?_, add_tsub_cancel_of_le hple, ?_⟩, ?_⟩
  · rw [hacc k i g hg, pAcc, ProbabilityTheory.cond, lintegral_smul_measure, smul_eq_mul, mul_assoc, ← mul_assoc (volume (ball d)),
      ENNReal.mul_inv_cancel (volume_ball_ne_zero d) (volume_ball_ne_top d), one_mul]
  · have hc : Measurable fun ω => cand d (rng ω) k i := (meas_cand d k i).mono (sig_le h _) le_rfl
    have hs := hc (measurableSet_ball d)
    rw [← hone k i]
    have := prob_compl_eq_one_sub (μ := μ) hs
    rw [show {ω | cand d (rng ω) k i ∈ ball d} = (fun ω => cand d (rng ω) k i) ⁻¹' ball d from rfl, ← this,
      ← lintegral_indicator_one hs.compl]
    rfl
  · exact (cond_isProbabilityMeasure_of_finite (volume_ball_ne_zero d) (volume_ball_ne_top d)).measure_univ
  · exact mul_ne_zero (by simp) (volume_ball_ne_zero d)

/-! ### it returns with probability 1 -/

section
variable {p q : ℝ≥0∞} {fac : ℝ}

theorem cst_mono {C C' : ℤ → ℝ≥0∞} (h : ∀ n, C n ≤ C' n) : ∀ m nm, cst p q C m nm ≤ cst p q C' m nm
  | 0, nm => h nm
  | m + 1, nm => by
    simp only [cst]
    exact add_le_add (mul_le_mul_right (cst_mono h m _) _) (mul_le_mul_right (cst_mono h m _) _)

theorem cst_le_one (hpq : p + q = 1) {C : ℤ → ℝ≥0∞} (h : ∀ n, C n ≤ 1) : ∀ m nm, cst p q C m nm ≤ 1
  | 0, nm => h nm
  | m + 1, nm => by
    simp only [cst]
    calc _ ≤ p * 1 + q * 1 := add_le_add (mul_le_mul_right (cst_le_one hpq h m _) _) (mul_le_mul_right (cst_le_one hpq h m _) _)
      _ = 1 := by rw [mul_one, mul_one, hpq]

theorem Cf_le_one (hpq : p + q = 1) : ∀ fuel nm, Cf p q fac fuel nm ≤ 1
  | 0, nm => by simp only [Cf]; split_ifs <;> simp
  | fuel + 1, nm => by
    simp only [Cf]
    split_ifs
    · exact cst_le_one hpq (Cf_le_one hpq fuel) _ _
    · exact le_rfl

theorem Cf_mono : ∀ fuel nm, Cf p q fac fuel nm ≤ Cf p q fac (fuel + 1) nm
  | 0, nm => by
    rw [Cf, Cf]; split_ifs <;> simp
  | fuel + 1, nm => by
    rw [Cf, Cf]
    split_ifs
    · exact cst_mono (Cf_mono fuel) _ _
    · exact le_rfl

theorem cst_tendsto (hp : p ≠ ⊤) (hq : q ≠ ⊤) {C : ℕ → ℤ → ℝ≥0∞} {L : ℤ → ℝ≥0∞} (h : ∀ n, Filter.Tendsto (fun F => C F n) Filter.atTop (nhds (L n))) :
    ∀ m nm, Filter.Tendsto (fun F => cst p q (C F) m nm) Filter.atTop (nhds (cst p q L m nm))
  | 0, nm => h nm
  | m + 1, nm => by
    simp only [cst]
    exact (ENNReal.Tendsto.const_mul (cst_tendsto hp hq h m _) (.inr hp)).add (ENNReal.Tendsto.const_mul (cst_tendsto hp hq h m _) (.inr hq))

theorem cst_one (hpq : p + q = 1) {L : ℤ → ℝ≥0∞} {nm : ℤ} (h : ∀ n < nm, L n = 1) : ∀ m, ∀ n < nm, cst p q L m n = 1
  | 0, n, hn => h n hn
  | m + 1, n, hn => by
    simp only [cst]
    rw [cst_one hpq h m n hn, cst_one hpq h m (n - 1) (by omega), mul_one, mul_one, hpq]

theorem cst_top (hpq : p + q = 1) {L : ℤ → ℝ≥0∞} {nm : ℤ} (h : ∀ n < nm, L n = 1) : ∀ m, cst p q L m nm + q ^ m = q ^ m * L nm + 1
  | 0 => by simp [cst]
  | m + 1 => by
    simp only [cst]
    rw [cst_one hpq h m (nm - 1) (by omega), mul_one, pow_succ']
    calc p + q * cst p q L m nm + q * q ^ m = p + q * (cst p q L m nm + q ^ m) := by ring
      _ = q * q ^ m * L nm + (p + q) := by rw [cst_top hpq h m]; ring
      _ = _ := by rw [hpq]

theorem mOf_pos (hfac : 1 ≤ fac) {nm : ℤ} (h : 0 < nm) : 0 < mOf fac nm := by
  have h1 : (1 : ℝ) ≤ nm := by exact_mod_cast h
  unfold mOf
  rw [Nat.floor_pos]
  have := Real.sqrt_nonneg (nm : ℝ)
  nlinarith

theorem Cf_sup (hpq : p + q = 1) (hp : p ≠ 0) (hfac : 1 ≤ fac) (nm : ℤ) : ⨆ fuel, Cf p q fac fuel nm = 1 := by
  have hp1 : p ≤ 1 := hpq ▸ le_self_add
  have hq1 : q ≤ 1 := hpq ▸ le_add_self
  have hpt : p ≠ ⊤ := (hp1.trans_lt ENNReal.one_lt_top).ne
  have hqt : q ≠ ⊤ := (hq1.trans_lt ENNReal.one_lt_top).ne
  have hmono : ∀ nm, Monotone fun fuel => Cf p q fac fuel nm := fun nm => monotone_nat_of_le_succ fun F => Cf_mono F nm
  have hq' : q < 1 := by
    refine lt_of_le_of_ne hq1 fun e => hp ?_
    rw [e] at hpq
    have h2 : p + 1 = 0 + 1 := by rw [hpq, zero_add]
    exact (ENNReal.add_left_inj ENNReal.one_ne_top).1 h2
  set L : ℤ → ℝ≥0∞ := fun nm => ⨆ fuel, Cf p q fac fuel nm with hL
  have hLt : ∀ n, Filter.Tendsto (fun F => Cf p q fac F n) Filter.atTop (nhds (L n)) := fun n => tendsto_atTop_iSup (hmono n)
  have hfix : ∀ n, L n = if 0 < n then cst p q L (mOf fac n) n else 1 := by
    intro n
    have h1 := (Filter.tendsto_add_atTop_iff_nat 1).2 (hLt n)
    simp only [Cf] at h1
    split_ifs at h1 ⊢ with hn
    · exact tendsto_nhds_unique h1 (cst_tendsto hpt hqt hLt _ _)
    · exact tendsto_nhds_unique h1 tendsto_const_nhds
  have hLle : ∀ n, L n ≤ 1 := fun n => iSup_le fun F => Cf_le_one hpq F n
  have key : ∀ k : ℕ, ∀ n : ℤ, n ≤ k → L n = 1 := by
    intro k
    induction k with
    | zero => intro n hn; rw [hfix, if_neg (by push_cast at hn; omega)]
    | succ k ih =>
      intro n hn
      by_cases h0 : 0 < n
      · have h1 := cst_top (q := q) hpq (L := L) (nm := n) (fun n' hn' => ih n' (by push_cast at hn; omega)) (mOf fac n)
        have hf := hfix n
        rw [if_pos h0] at hf
        rw [← hf] at h1
        have hqm : q ^ mOf fac n < 1 := pow_lt_one₀ zero_le hq' (mOf_pos hfac h0).ne'
        have hLn := hLle n
        have a1 : L n ≠ ⊤ := (hLn.trans_lt ENNReal.one_lt_top).ne
        have a2 : q ^ mOf fac n ≠ ⊤ := (hqm.trans ENNReal.one_lt_top).ne
        generalize L n = l at *
        generalize q ^ mOf fac n = x at *
        lift l to NNReal using a1
        lift x to NNReal using a2
        have h2 : l + x = x * l + 1 := by exact_mod_cast h1
        have h3 : x < 1 := by exact_mod_cast hqm
        have h4 : (l : ℝ) + x = x * l + 1 := by exact_mod_cast h2
        have h5 : (x : ℝ) < 1 := by exact_mod_cast h3
        have h6 : ((l : ℝ) - 1) * (1 - x) = 0 := by linarith
        rcases mul_eq_zero.1 h6 with h7 | h7
        · have : (l : ℝ) = 1 := by linarith
          have : l = 1 := by exact_mod_cast this
          rw [this]; rfl
        · linarith
      · rw [hfix, if_neg h0]
  exact key nm.toNat nm (by omega)

end

/-! ### the sample -/

theorem ravel_unravel : ∀ (s : List ℕ) (i : ℕ), i < s.prod → ravelIdx s (NdArr.unravel s i) = i
  | [], i, h => by simp at h; simp [ravelIdx, h]
  | d :: s, i, h => by
    rw [List.prod_cons] at h
    have hp : 0 < s.prod := Nat.pos_of_ne_zero (by rintro e; rw [e] at h; simp at h)
    rw [NdArr.unravel, ravelIdx, ravel_unravel s _ (Nat.mod_lt _ hp)]
    exact Nat.div_add_mod' _ _

theorem prod_indices {M : Type} [CommMonoid M] (s : List ℕ) (g : List ℕ → M) :
    ∏ idx ∈ indices s, g idx = ∏ n ∈ Finset.range s.prod, g (NdArr.unravel s n) := by
  refine Finset.prod_bij' (fun idx _ => ravelIdx s idx) (fun n _ => NdArr.unravel s n) ?_ ?_ ?_ ?_ ?_
  · intro idx h; exact Finset.mem_range.2 (ravelIdx_spec _ _ ((mem_indices _ _).1 h)).1
  · intro n h; exact (mem_indices _ _).2 (unravel_valid _ _ (Finset.mem_range.1 h))
  · intro idx h; exact (ravelIdx_spec _ _ ((mem_indices _ _).1 h)).2
  · intro n h; exact ravel_unravel _ _ (Finset.mem_range.1 h)
  · intro idx h; rw [(ravelIdx_spec _ _ ((mem_indices _ _).1 h)).2]

open Classical in
theorem prodf_ind {d : ℕ} : ∀ (p : List (List ℝ)) (B : ℕ → Set (Fin d → ℝ)),
    prodf (fun n => (B n).indicator 1) p = if ∀ i < p.length, toPt d (p.getD i []) ∈ B i then 1 else 0
  | [], B => by simp [prodf]
  | r :: p, B => by
    rw [prodf, prodf_ind p fun n => B (n + 1)]
    have : (∀ i < (r :: p).length, toPt d ((r :: p).getD i []) ∈ B i) ↔ toPt d r ∈ B 0 ∧ ∀ i < p.length, toPt d (p.getD i []) ∈ B (i + 1) := by
      constructor
      · intro h
        refine ⟨by simpa using h 0 (by simp), fun i hi => ?_⟩
        have := h (i + 1) (by simpa using hi)
        simpa using this
      · rintro ⟨h0, h⟩ i hi
        cases i with
        | zero => simpa using h0
        | succ i => simpa using h i (by simpa using hi)
    by_cases h0 : toPt d r ∈ B 0
    · rw [Set.indicator_of_mem h0, Pi.one_apply, one_mul]
      exact if_congr (by rw [this]; simp [h0]) rfl rfl
    · rw [Set.indicator_of_notMem h0, zero_mul, if_neg]
      rw [this]; tauto

theorem reject_mono (r : Rng) (d : ℕ) (fac : ℝ) : ∀ (fuel k : ℕ) (nm : ℤ) (p x : List (List ℝ)),
    reject r d fac fuel k nm p = some x → reject r d fac (fuel + 1) k nm p = some x
  | 0, k, nm, p, x, h => by
    rw [reject] at h
    split_ifs at h with h0
    rw [reject, if_neg h0]; exact h
  | fuel + 1, k, nm, p, x, h => by
    by_cases h0 : 0 < nm
    · rw [reject_step _ _ _ _ _ _ _ h0] at h ⊢
      exact reject_mono r d fac fuel _ _ _ _ h
    · rw [reject, if_neg h0] at h
      rw [reject, if_neg h0]; exact h

theorem pointAt_rows {d : ℕ} {s : List ℕ} {rows : List (List ℝ)} (hr : ∀ x ∈ rows, x.length = d) (hl : s.prod ≤ rows.length)
    {idx : List ℕ} (hidx : ValidIdx s idx) : pointAt d (rowsReshape d s rows) idx = toPt d (rows.getD (ravelIdx s idx) []) := by
  obtain ⟨h1, _⟩ := ravelIdx_spec _ _ hidx
  funext j
  simp only [pointAt, rowsReshape, NdArr.ofList, toPt]
  rw [ravelIdx_append _ _ _ _ hidx.1.symm,
    flatten_getD _ d _ j (fun x hx => hr x (List.mem_of_mem_take hx)) (by rw [List.length_take]; omega) j.2,
    List.getD_eq_getElem (List.take _ rows) _ (by rw [List.length_take]; omega),
    List.getD_eq_getElem rows _ (show ravelIdx s idx < rows.length by omega), List.getElem_take]

theorem sample_reject (h : IdealRng μ rng) (d : ℕ) {fac : ℝ} (hfac : 1 ≤ fac) (s : List ℕ)
    (X : Ω → (List ℕ → Fin d → ℝ) → Prop)
    (hX : ∀ ω x, X ω x ↔ ∃ fuel p, reject (rng ω) d fac fuel 0 s.prod [] = some p ∧ x = pointAt d (rowsReshape d s p)) :
    IsSample μ s X (cond volume (ball d)) := by
  classical
  intro A hA
  obtain ⟨hc, hp⟩ := oneCand h d
  let B : ℕ → Set (Fin d → ℝ) := fun n => if n < s.prod then A (NdArr.unravel s n) else Set.univ
  let f : ℕ → (Fin d → ℝ) → ℝ≥0∞ := fun n => (B n).indicator 1
  have hB : ∀ n, MeasurableSet (B n) := by
    intro n; simp only [B]; split_ifs
    · exact hA _
    · exact MeasurableSet.univ
  have hf : ∀ n, Measurable (f n) := fun n => measurable_one.indicator (hB n)
  let W : ℕ → Set Ω := fun F => {ω | ∃ p, reject (rng ω) d fac F 0 s.prod [] = some p ∧ ∀ i < p.length, toPt d (p.getD i []) ∈ B i}
  have hV : ∀ F ω, V d fac F 0 s.prod f (rng ω) = (W F).indicator 1 ω := by
    intro F ω
    unfold V
    cases hr : reject (rng ω) d fac F 0 s.prod [] with
    | none => 
      rw [Set.indicator_of_notMem]
      rintro ⟨p', hr', _⟩
      rw [hr] at hr'; cases hr'
    | some p =>
      show prodf f p = _
      rw [prodf_ind]
      by_cases hb : ∀ i < p.length, toPt d (p.getD i []) ∈ B i
      · rw [if_pos hb, Set.indicator_of_mem]
        · rfl
        · exact ⟨p, hr, hb⟩
      · rw [if_neg hb, Set.indicator_of_notMem]
        rintro ⟨p', hr', hb'⟩
        rw [hr] at hr'
        cases hr'
        exact hb hb'
  have hWm : ∀ F, MeasurableSet (W F) := by
    intro F
    have hm : Measurable fun ω => V d fac F 0 s.prod f (rng ω) := (meas_V F 0 s.prod f hf).mono (sig_le h _) le_rfl
    have : W F = (fun ω => V d fac F 0 s.prod f (rng ω)) ⁻¹' {1} := by
      ext ω
      simp only [Set.mem_preimage, hV, Set.mem_singleton_iff]
      by_cases hw : ω ∈ W F <;> simp [hw]
    rw [this]; exact hm (measurableSet_singleton 1)
  have hWμ : ∀ F, μ (W F) = Cf (pAcc d) (1 - pAcc d) fac F s.prod * ∏ idx ∈ indices s, cond volume (ball d) (A idx) := by
    intro F
    rw [← lintegral_indicator_one (hWm F)]
    simp only [← hV]
    rw [lint_V h hc F 0 s.prod f hf]
    · congr 1
      rw [prod_indices, Int.toNat_natCast]
      refine Finset.prod_congr rfl fun n hn => ?_
      rw [lintegral_indicator_one (hB n)]
      simp only [B, if_pos (Finset.mem_range.1 hn)]
    · intro n hn
      rw [Int.toNat_natCast] at hn
      simp only [f, B, if_neg (show ¬ n < s.prod by omega), Set.indicator_univ]
  have hWmono : Monotone W := monotone_nat_of_le_succ fun F ω ⟨p, h1, h2⟩ => ⟨p, reject_mono _ _ _ _ _ _ _ _ h1, h2⟩
  have hE : {ω | ∃ x, X ω x ∧ ∀ idx ∈ indices s, x idx ∈ A idx} = ⋃ F, W F := by
    ext ω
    simp only [Set.mem_ofPred_eq, Set.mem_iUnion, W]
    have hrows : ∀ F p, reject (rng ω) d fac F 0 s.prod [] = some p →
        ((∀ idx ∈ indices s, pointAt d (rowsReshape d s p) idx ∈ A idx) ↔ ∀ i < p.length, toPt d (p.getD i []) ∈ B i) := by
      intro F p hr
      obtain ⟨h1, h2⟩ := reject_spec _ _ _ _ _ hr (by simp)
      have hlen : s.prod ≤ p.length := by
        rcases h1 with h1 | ⟨h1, _⟩
        · simp only [List.length_nil, Nat.cast_zero, add_zero] at h1; exact Int.ofNat_le.1 h1
        · have := Int.ofNat_le.1 h1; omega
      constructor
      · intro ha i hi
        simp only [B]
        split_ifs with hs
        · have := ha _ ((mem_indices _ _).2 (unravel_valid s i hs))
          rwa [pointAt_rows (fun x hx => (h2 x hx).1) hlen (unravel_valid s i hs), ravel_unravel s i hs] at this
        · trivial
      · intro hb idx hidx
        have hv := (mem_indices _ _).1 hidx
        obtain ⟨w1, w2⟩ := ravelIdx_spec _ _ hv
        have := hb (ravelIdx s idx) (by omega)
        simp only [B, if_pos w1, w2] at this
        rwa [pointAt_rows (fun x hx => (h2 x hx).1) hlen hv]
    constructor
    · rintro ⟨x, hx, ha⟩
      obtain ⟨F, p, hr, rfl⟩ := (hX ω x).1 hx
      exact ⟨F, p, hr, (hrows F p hr).1 ha⟩
    · rintro ⟨F, p, hr, hb⟩
      exact ⟨_, (hX ω _).2 ⟨F, p, hr, rfl⟩, (hrows F p hr).2 hb⟩
  rw [hE]
  refine ⟨MeasurableSet.iUnion hWm, ?_⟩
  rw [hWmono.measure_iUnion]
  simp only [hWμ]
  rw [← ENNReal.iSup_mul, Cf_sup hc.sum hp hfac, one_mul]

end Rand
end Npplus
