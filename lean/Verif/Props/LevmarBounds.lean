import Verif.Props.LevmarLinOk

/-!
# C113: levmar with bounds
-/

set_option linter.unusedSectionVars false
namespace Npplus
open Npplus.Spec

namespace Spec
variable {K : Type} [Field K] [LinearOrder K]

/-- the effects of any two free parameters on the data are orthogonal (with the weights); true in particular for a single free parameter -/
def OrthogonalCols (A : LmArgs K) (B : ℕ → ℕ → K) : Prop :=
  ∀ i < A.p0.length, ∀ j < A.p0.length, ¬ Fixed A i → ¬ Fixed A j → i ≠ j →
    ∑ t ∈ Finset.range A.data.length, B i t / elem1 A.errs t * (B j t / elem1 A.errs t) = 0

end Spec

namespace LinAux
variable {K : Type} [Field K] [LinearOrder K] [IsStrictOrderedRing K]

/-- one coordinate of a clipped step -/
theorem coord {lam δ d e : K} (hlam : 0 ≤ lam) (h : d = δ ∨ (0 ≤ d ∧ d ≤ δ ∧ e ≤ d) ∨ (δ ≤ d ∧ d ≤ 0 ∧ d ≤ e)) :
    d ^ 2 - 2 * (1 + lam) * δ * d ≤ 0 ∧
    (d ^ 2 - 2 * (1 + lam) * δ * d) - (e ^ 2 - 2 * (1 + lam) * δ * e) ≤ lam / 2 * (0 - (d ^ 2 - 2 * (1 + lam) * δ * d)) := by
  rcases h with rfl | ⟨h1, h2, h3⟩ | ⟨h1, h2, h3⟩
  · constructor
    · nlinarith [sq_nonneg d, mul_nonneg hlam (sq_nonneg d)]
    · nlinarith [sq_nonneg (e - (1 + lam) * d), mul_nonneg hlam (sq_nonneg d)]
  · have a1 : d ^ 2 - 2 * (1 + lam) * δ * d ≤ 0 := by
      have := mul_nonneg h1 (sub_nonneg.2 h2)
      have h5 := mul_nonneg (mul_nonneg hlam (h1.trans h2)) h1
      nlinarith
    refine ⟨a1, ?_⟩
    have a2 : (d ^ 2 - 2 * (1 + lam) * δ * d) - (e ^ 2 - 2 * (1 + lam) * δ * e) ≤ 0 := by
      have : (d ^ 2 - 2 * (1 + lam) * δ * d) - (e ^ 2 - 2 * (1 + lam) * δ * e) = -((d - e) * (2 * (1 + lam) * δ - d - e)) := by ring
      rw [this]
      have h4 : 0 ≤ 2 * (1 + lam) * δ - d - e := by nlinarith [mul_nonneg hlam (h1.trans h2)]
      have := mul_nonneg (sub_nonneg.2 h3) h4
      linarith
    have := mul_nonneg (show (0:K) ≤ lam / 2 by linarith) (show 0 ≤ 0 - (d ^ 2 - 2 * (1 + lam) * δ * d) by linarith)
    linarith
  · have hδ : δ ≤ 0 := h1.trans h2
    have a1 : d ^ 2 - 2 * (1 + lam) * δ * d ≤ 0 := by
      have := mul_nonneg (neg_nonneg.2 h2) (sub_nonneg.2 h1)
      have h5 := mul_nonneg (mul_nonneg hlam (neg_nonneg.2 hδ)) (neg_nonneg.2 h2)
      nlinarith
    refine ⟨a1, ?_⟩
    have a2 : (d ^ 2 - 2 * (1 + lam) * δ * d) - (e ^ 2 - 2 * (1 + lam) * δ * e) ≤ 0 := by
      have : (d ^ 2 - 2 * (1 + lam) * δ * d) - (e ^ 2 - 2 * (1 + lam) * δ * e) = -((e - d) * (d + e - 2 * (1 + lam) * δ)) := by ring
      rw [this]
      have h4 : 0 ≤ d + e - 2 * (1 + lam) * δ := by nlinarith [mul_nonneg hlam (neg_nonneg.2 hδ)]
      have := mul_nonneg (sub_nonneg.2 h3) h4
      linarith
    have := mul_nonneg (show (0:K) ≤ lam / 2 by linarith) (show 0 ≤ 0 - (d ^ 2 - 2 * (1 + lam) * δ * d) by linarith)
    linarith

section
variable {A : LmArgs K} {F : UserF K} {solve : List (List K) → List K → Except PyErr (List K)} {E : LmEnv K}
  {V : List K → List K} {D : List K → List (List K)} {B : ℕ → ℕ → K} {c : ℕ → K}

/-- where clipping leads -/
theorem clip_coord (hok : EnvOK E) {p s u : List K} (hp : FreeIn E p) (hu : FreeIn E u) (hs : s.length = E.pmask.countP id) {k : ℕ}
    (hk : k < E.pmask.countP id) : (E.clip s).getD k 0 = s.getD k 0 ∨
      (p.getD k 0 ≤ (E.clip s).getD k 0 ∧ (E.clip s).getD k 0 ≤ s.getD k 0 ∧ u.getD k 0 ≤ (E.clip s).getD k 0) ∨
      (s.getD k 0 ≤ (E.clip s).getD k 0 ∧ (E.clip s).getD k 0 ≤ p.getD k 0 ∧ (E.clip s).getD k 0 ≤ u.getD k 0) := by
  have hp := hp.2 k hk
  have hu := hu.2 k hk
  unfold LmEnv.clip
  cases h1 : E.pmin with
  | none =>
    cases h2 : E.pmax with
    | none => left; rfl
    | some c =>
      have hl := hok.pmax c h2
      simp only
      rw [getD_zipWith2 _ _ _ k 0 0 _ (by rw [hs]; exact hk) (by rw [hl]; exact hk)]
      rcases le_total (s.getD k 0) (c.getD k 0) with h | h
      · left; exact min_eq_left h
      · right; left
        rw [min_eq_right h]
        exact ⟨hp.2 c h2, h, hu.2 c h2⟩
  | some a =>
    have hla := hok.pmin a h1
    cases h2 : E.pmax with
    | none =>
      simp only
      rw [getD_zipWith2 _ _ _ k 0 0 _ (by rw [hs]; exact hk) (by rw [hla]; exact hk)]
      rcases le_total (a.getD k 0) (s.getD k 0) with h | h
      · left; exact max_eq_left h
      · right; right
        rw [max_eq_right h]
        exact ⟨h, hp.1 a h1, hu.1 a h1⟩
    | some c =>
      have hl := hok.pmax c h2
      simp only
      rw [getD_zipWith2 _ _ _ k 0 0 _ (by simp [hs, hla, hk]) (by rw [hl]; exact hk),
        getD_zipWith2 _ _ _ k 0 0 _ (by rw [hs]; exact hk) (by rw [hla]; exact hk)]
      have hac : a.getD k 0 ≤ c.getD k 0 := (hp.1 a h1).trans (hp.2 c h2)
      rcases le_total (a.getD k 0) (s.getD k 0) with h | h
      · rw [max_eq_left h]
        rcases le_total (s.getD k 0) (c.getD k 0) with h' | h'
        · left; exact min_eq_left h'
        · right; left
          rw [min_eq_right h']
          exact ⟨hp.2 c h2, h', hu.2 c h2⟩
      · right; right
        rw [max_eq_right h, min_eq_left hac]
        exact ⟨h, hp.1 a h1, hu.1 a h1⟩

/-- one clipped step of the program, for orthogonal columns -/
theorem step_bounds (h : EnvOf A F solve E) (hs : SolveLen solve) (hso : SolveOK solve) (hV : PureF F V A.data.length)
    (hD : F.isgen = true → PureD F D A.data.length) (hB : LinearModel A V B c) (hDB : F.isgen = true → ∀ q i t, ent (D q) i t = B i t)
    (ho : OrthogonalCols A B) (h0 : InBounds A A.p0) {lam : K} (hlam : 0 ≤ lam)
    {p1 v dm beta x s bt : List K} {rows al : List (List K)} (hp1 : FreeIn E p1) (hv : v = V (E.full p1))
    (hdm : bzip (· - ·) E.data v = .ok dm) (hbeta : bzip (· * ·) E.wgt dm = .ok beta) (hrows : RowsAt E p1 rows) {isgen : Bool}
    (hn : normalEqs isgen E.wgt beta rows = .ok (bt, al)) (hx : solve (damp al lam) bt = .ok x) (hsx : bzip (· + ·) p1 x = .ok s) :
    StepOK A V (fun u => KeepsFixed A u ∧ InBounds A u) 1 lam (E.full p1) (E.full (E.clip s)) := by
  have hok := h.ok hs
  obtain ⟨hsl, heq⟩ := step_eqs h hs hso hV hD hB hDB hp1.1 hv hdm hbeta hrows hn hx hsx
  have hfull : ∀ p, (E.full p).length = A.p0.length := fun p => by rw [E.full_length, h.p0]
  set q := E.full p1 with hq
  set g : ℕ → ℕ → K := wcol A B with hg
  set n : ℕ → K := fun i => ∑ t ∈ Finset.range A.data.length, g i t ^ 2 with hn'
  set δ : ℕ → K := fun i => (E.full s).getD i 0 - q.getD i 0 with hδ
  have hn0 : ∀ i, 0 ≤ n i := fun i => Finset.sum_nonneg fun _ _ => sq_nonneg _
  -- sums over the columns
  have gram : ∀ d : ℕ → K, (∀ i < A.p0.length, Fixed A i → d i = 0) → ∀ i < A.p0.length, ¬ Fixed A i →
      ∑ t ∈ Finset.range A.data.length, g i t * ∑ j ∈ Finset.range A.p0.length, d j * g j t = n i * d i := by
    intro d hd i hi hfi
    have e : ∑ t ∈ Finset.range A.data.length, g i t * ∑ j ∈ Finset.range A.p0.length, d j * g j t =
        ∑ j ∈ Finset.range A.p0.length, d j * ∑ t ∈ Finset.range A.data.length, g i t * g j t := by
      simp only [Finset.mul_sum]
      rw [Finset.sum_comm]
      exact Finset.sum_congr rfl fun j _ => Finset.sum_congr rfl fun t _ => by ring
    rw [e, Finset.sum_eq_single i]
    · rw [hn', mul_comm]
      congr 1
      exact Finset.sum_congr rfl fun t _ => by ring
    · intro j hj hji
      rw [Finset.mem_range] at hj
      by_cases hfj : Fixed A j
      · rw [hd j hj hfj, zero_mul]
      · have := ho i hi j hj hfi hfj (Ne.symm hji)
        rw [show ∑ t ∈ Finset.range A.data.length, g i t * g j t = 0 from this, mul_zero]
    · intro hni; exact absurd (Finset.mem_range.2 hi) hni
  have hδ0 : ∀ i < A.p0.length, Fixed A i → δ i = 0 := fun i hi hf => by
    simp only [hδ, hq]
    rw [full_fixed h s hi hf, full_fixed h p1 hi hf, sub_self]
  -- the gradient at the old point
  have hb : ∀ i < A.p0.length, ¬ Fixed A i → ∑ t ∈ Finset.range A.data.length, g i t * resid A V q t = (1 + lam) * n i * δ i := by
    intro i hi hf
    have h1 := heq i hi hf
    have h2 : ∑ t ∈ Finset.range A.data.length, g i t * resid A V (E.full s) t =
        ∑ t ∈ Finset.range A.data.length, g i t * resid A V q t - n i * δ i := by
      rw [← gram δ hδ0 i hi hf, ← Finset.sum_sub_distrib]
      refine Finset.sum_congr rfl fun t ht => ?_
      rw [resid_lin hB (hfull p1) (hfull s) (Finset.mem_range.1 ht)]
      simp only [hδ, hq, hg]
      ring
    have h3 : ∑ t ∈ Finset.range A.data.length, g i t * resid A V (E.full s) t = lam * n i * δ i := h1
    rw [h2] at h3
    linear_combination h3
  -- the sum of squares elsewhere
  have hchi : ∀ y : List K, KeepsFixed A y → lmChisq A V y = lmChisq A V q +
      ∑ i ∈ Finset.range A.p0.length, n i * ((y.getD i 0 - q.getD i 0) ^ 2 - 2 * (1 + lam) * δ i * (y.getD i 0 - q.getD i 0)) := by
    intro y hy
    set d : ℕ → K := fun i => y.getD i 0 - q.getD i 0 with hd
    have hd0 : ∀ i < A.p0.length, Fixed A i → d i = 0 := fun i hi hf => by
      simp only [hd, hq]
      rw [hy.2 i hi hf, full_fixed h p1 hi hf, sub_self]
    have e1 : lmChisq A V y = ∑ t ∈ Finset.range A.data.length, (resid A V q t - ∑ i ∈ Finset.range A.p0.length, d i * g i t) ^ 2 :=
      Finset.sum_congr rfl fun t ht => by
        have := resid_lin hB (hfull p1) hy.1 (Finset.mem_range.1 ht)
        change (resid A V y t) ^ 2 = _
        rw [this]
    have e2 : lmChisq A V q = ∑ t ∈ Finset.range A.data.length, resid A V q t ^ 2 := rfl
    have e3 : ∀ r : ℕ → K, ∑ t ∈ Finset.range A.data.length, (∑ i ∈ Finset.range A.p0.length, d i * g i t) * r t =
        ∑ i ∈ Finset.range A.p0.length, d i * ∑ t ∈ Finset.range A.data.length, g i t * r t := fun r => by
      simp only [Finset.mul_sum, Finset.sum_mul]
      rw [Finset.sum_comm]
      exact Finset.sum_congr rfl fun j _ => Finset.sum_congr rfl fun t _ => by ring
    have e4 := e3 (resid A V q)
    have e5 := e3 fun t => ∑ i ∈ Finset.range A.p0.length, d i * g i t
    have e6 : ∑ i ∈ Finset.range A.p0.length, d i * ∑ t ∈ Finset.range A.data.length, g i t * resid A V q t =
        ∑ i ∈ Finset.range A.p0.length, n i * ((1 + lam) * δ i * d i) := Finset.sum_congr rfl fun i hi => by
      rw [Finset.mem_range] at hi
      by_cases hf : Fixed A i
      · rw [hd0 i hi hf]; ring
      · rw [hb i hi hf]; ring
    have e7 : ∑ i ∈ Finset.range A.p0.length, d i * ∑ t ∈ Finset.range A.data.length, g i t * ∑ j ∈ Finset.range A.p0.length, d j * g j t =
        ∑ i ∈ Finset.range A.p0.length, n i * d i ^ 2 := Finset.sum_congr rfl fun i hi => by
      rw [Finset.mem_range] at hi
      by_cases hf : Fixed A i
      · rw [hd0 i hi hf]; ring
      · rw [gram d hd0 i hi hf]; ring
    rw [e6] at e4
    rw [e7] at e5
    have e8 : ∑ i ∈ Finset.range A.p0.length, n i * (d i ^ 2 - 2 * (1 + lam) * δ i * d i) =
        ∑ i ∈ Finset.range A.p0.length, n i * d i ^ 2 - 2 * ∑ i ∈ Finset.range A.p0.length, n i * ((1 + lam) * δ i * d i) := by
      rw [Finset.mul_sum, ← Finset.sum_sub_distrib]
      exact Finset.sum_congr rfl fun i _ => by ring
    rw [e1, e2, e8, ← e4, ← e5, Finset.mul_sum, ← Finset.sum_sub_distrib, ← Finset.sum_add_distrib]
    exact Finset.sum_congr rfl fun t _ => by ring
  -- one coordinate
  have hco : ∀ u, KeepsFixed A u → InBounds A u → ∀ i < A.p0.length, _ := fun u hk hu i hi =>
    show _ from (coord (lam := lam) (δ := δ i) (d := (E.full (E.clip s)).getD i 0 - q.getD i 0) (e := u.getD i 0 - q.getD i 0) hlam (by
      by_cases hf : Fixed A i
      · left
        simp only [hδ, hq]
        rw [full_fixed h s hi hf, full_fixed h (E.clip s) hi hf]
      · obtain ⟨k, hk', hki⟩ := exists_freeIdx (m := E.pmask) (i := i) (by rw [h.mask_len]; exact hi) fun h0 => hf ((h.mask i hi).1 h0)
        have hkc : k < E.pmask.countP id := by rw [← freeIdx_length]; exact hk'
        have hm : E.pmask.length = E.p0.length := by rw [h.mask_len, h.p0]
        have hget : ∀ p : List K, p.length = E.pmask.countP id → (E.full p).getD i 0 = p.getD k 0 := fun p hl => by
          unfold LmEnv.full
          rw [← hki]
          exact maskSet_getD_free 0 _ _ _ hm hl k hk'
        have hgu : u.getD i 0 = (maskGet E.pmask u).getD k 0 := by
          rw [maskGet_getD 0 E.pmask u (by rw [h.mask_len, hk.1]) k hk', hki]
        simp only [hδ, hq]
        rw [hget s hsl, hget _ (hok.clip_length hsl), hget p1 hp1.1, hgu]
        rcases clip_coord hok hp1 (freeIn_get h hu) hsl hkc with h1 | ⟨h1, h2, h3⟩ | ⟨h1, h2, h3⟩
        · left; rw [h1]
        · right; left; exact ⟨by linarith, by linarith, by linarith⟩
        · right; right; exact ⟨by linarith, by linarith, by linarith⟩))
  have hself := keepsFixed_full h (E.clip s)
  have hqk : KeepsFixed A q := keepsFixed_full h p1
  have hqb : InBounds A q := by
    rw [hq]
    unfold LmEnv.full
    rw [h.p0]
    exact freeIn_full h h0 hp1
  have hS' := hchi _ hself
  have hle : lmChisq A V (E.full (E.clip s)) ≤ lmChisq A V q := by
    rw [hS']
    have : ∑ i ∈ Finset.range A.p0.length, n i * (((E.full (E.clip s)).getD i 0 - q.getD i 0) ^ 2 -
        2 * (1 + lam) * δ i * ((E.full (E.clip s)).getD i 0 - q.getD i 0)) ≤ 0 :=
      Finset.sum_nonpos fun i hi => mul_nonpos_of_nonneg_of_nonpos (hn0 i) (hco q hqk hqb i (Finset.mem_range.1 hi)).1
    linarith
  refine ⟨hle, fun u hu => ?_⟩
  have hSu := hchi u hu.1
  rw [hS', hSu, mul_one]
  have e1 : ∀ a b d : K, a + b - (a + d) = b - d := fun a b d => by ring
  have e2 : ∀ a b : K, a - (a + b) = -b := fun a b => by ring
  rw [e1, e2, ← Finset.sum_sub_distrib, ← Finset.sum_neg_distrib, Finset.mul_sum]
  refine Finset.sum_le_sum fun i hi => ?_
  have := mul_le_mul_of_nonneg_left (hco u hu.1 hu.2 i (Finset.mem_range.1 hi)).2 (hn0 i)
  linarith

end
end LinAux

open LinAux
section
variable {K : Type} [Field K] [LinearOrder K] [IsStrictOrderedRing K]
  {A : LmArgs K} {F : UserF K} {solve : List (List K) → List K → Except PyErr (List K)}
  {V : List K → List K} {D : List K → List (List K)} {B : ℕ → ℕ → K} {c : ℕ → K}

/-- **C113** for orthogonal columns, in particular for a single free parameter: with any bounds (and `p0` within them) the sum of squares of the
parameters returned exceeds that of any parameters `u` within the bounds by at most `lamda*tol/2` times the initial one; when the iteration limit was
hit, by at most `(lambda0/(2 + lambda0))**itmax` times it.  (Missing: columns which are not orthogonal, for which this is false, see `C113_bounds_refuted`.) -/
theorem C113_orthogonal_partial (hs : SolveLen solve) (hso : SolveOK solve) (hV : PureF F V A.data.length)
    (hD : F.isgen = true → PureD F D A.data.length) (hB : LinearModel A V B c) (hDB : F.isgen = true → ∀ q i t, ent (D q) i t = B i t)
    (ho : OrthogonalCols A B) (h0 : InBounds A A.p0) (hl0 : 0 < A.cfg.lambda0) (hgain : 1 < A.cfg.gain)
    (htol : 0 ≤ A.cfg.tol) {inv : List (List K) → Except PyErr (List (List K))} {fo fi : ℕ} {r : LmFit K}
    (hr : (levmar A F solve inv fo fi).1 = .ok r) {u : List K} (hu : KeepsFixed A u) (hub : InBounds A u) :
    (r.warned = false → r.lamda = A.cfg.lambda0 / A.cfg.gain ^ r.niter ∧
      lmChisq A V r.p ≤ lmChisq A V u + r.lamda * A.cfg.tol / 2 * lmChisq A V A.p0) ∧
    (r.warned = true →
      lmChisq A V r.p ≤ lmChisq A V u + (A.cfg.lambda0 / (2 + A.cfg.lambda0)) ^ A.cfg.itmax * lmChisq A V A.p0) := by
  have key : LinEnd A V (fun u => KeepsFixed A u ∧ InBounds A u) 1 r.p r.lamda r.niter r.warned := by
    refine levmar_post (Q := fun r => LinEnd A V (fun u => KeepsFixed A u ∧ InBounds A u) 1 r.p r.lamda r.niter r.warned) (fun E hE => ?_) hr
    have h := env_ok hE
    have hp := pathOK_init (V := V) h
    have hin : FreeIn E (maskGet E.pmask A.p0) := freeIn_get h h0
    refine ⟨_, outer_lin (mu := 1) h hs hV (U := fun u => KeepsFixed A u ∧ InBounds A u) (J := FreeIn E) (fun _ h => h.1)
      (fun s hl => clip_in (h.ok hs) hin hl) (fun hlam _ _ _ _ _ _ _ _ _ hp1 hv hdm hbeta hrows hn hx hsx =>
        step_bounds h hs hso hV hD hB hDB ho h0 hlam hp1 hv hdm hbeta hrows hn hx hsx) one_pos hl0 hgain htol fi fo E.init
      ⟨?_, fun h0 => (hp.zero h0).2, fun h0 => absurd rfl h0, by rw [(hp.zero rfl).2], ?_, fun u _ => ?_, rfl⟩, fun st r hst hfin => ?_⟩
    · simp only [LmEnv.init]; rw [h.p0]; exact hin
    · show E.cfg.lambda0 = _
      rw [h.cfg]; simp [LmEnv.init]
    · rw [(hp.zero rfl).2]
      have := lmChisq_nonneg A V u
      simp [LmEnv.init, this]
    · unfold LmEnv.finish at hfin
      simp only [bind, Except.bind, pure, Except.pure] at hfin
      split at hfin
      · cases hfin
      · rw [← Except.ok.inj hfin]
        exact hst
  refine ⟨fun hw => ⟨(key.fast hw).1, ?_⟩, fun hw => ?_⟩
  · have := (key.fast hw).2 u ⟨hu, hub⟩
    rw [mul_one] at this
    linarith
  · have := key.slow hw u ⟨hu, hub⟩
    rw [mul_one] at this
    linarith

end

/-- a concrete case: the model of `LevmarLin` with the slope bounded by 3/2 -/
def bndLin : LmArgs ℚ := { linArgs with pmin := some [-5], pmax := some [10, 3 / 2, 10] }

example : OrthogonalCols bndLin linB := by
  intro i hi j hj hfi hfj hij
  simp only [bndLin, linArgs, List.length_cons, List.length_nil] at hi hj
  interval_cases i <;> interval_cases j
  all_goals first
    | exact absurd rfl hij
    | exact absurd ⟨_, rfl, 2, by simp, Or.inl rfl⟩ hfi
    | exact absurd ⟨_, rfl, 2, by simp, Or.inl rfl⟩ hfj
    | (simp [bndLin, linArgs, Finset.sum_range_succ, linB, elem1]; norm_num)

example : InBounds bndLin bndLin.p0 := by
  refine ⟨rfl, fun i hi => ⟨fun l hl => ?_, fun l hl => ?_⟩⟩
  all_goals
    cases hl
    simp only [bndLin, linArgs, List.length_cons, List.length_nil] at hi
    interval_cases i <;> decide +kernel

/-- the slope returned is the bound -/
example : (levmar bndLin linUser solve2 inv2 9 9).1.toOption.map (fun r => (r.p, r.niter, r.warned, r.lamda)) =
    some ([764 / 459, 3 / 2, 1], 2, false, 1 / 16) := by decide +kernel

/-- `[p0 + p1, p1]` -/
def bndFun (p : List ℚ) : List ℚ := [p.getD 0 0 + p.getD 1 0, p.getD 1 0]

/-- the plain Python function -/
def bndUser : UserF ℚ := ⟨false, fun _ p => .ok (bndFun p), fun _ _ => .error .typeError⟩

/-- fitted to `[0, 1.006004]` with `p1 <= 0`, from `[1, 0]`, default configuration -/
def bndArgs : LmArgs ℚ where
  data := [0, 1006004 / 1000000]
  errs := [1]
  p0 := [1, 0]
  pmax := some [10, 0]
  cfg := .default

/-- the coefficients -/
def bndB (i t : ℕ) : ℚ := if i = 1 then 1 else if t = 0 then 1 else 0

theorem bnd_run : (levmar bndArgs bndUser solve2 inv2 100 100).1.toOption.map (fun r => (r.p, r.niter, r.warned)) = some ([-1, 0], 0, false) := by
  decide +kernel

/-- **C113 is violated by the code**: for a linear model of two parameters, with the default configuration and exact arithmetic, levmar returns without
any warning parameters whose sum of squares is almost twice that of other parameters within the bounds.  (The step is computed without the bounds and then
clipped; when the clipped step happens to lead to an equally bad point on the other side of the minimum, the convergence test is satisfied.) -/
theorem C113_bounds_refuted : ∃ (A : LmArgs ℚ) (F : UserF ℚ) (V : List ℚ → List ℚ) (B : ℕ → ℕ → ℚ) (r : LmFit ℚ) (u : List ℚ),
    A.cfg = .default ∧ PureF F V A.data.length ∧ F.isgen = false ∧ LinearModel A V B 0 ∧ IndependentCols A B ∧ InBounds A A.p0 ∧
    (levmar A F solve2 inv2 100 100).1 = .ok r ∧ r.warned = false ∧ InBounds A u ∧ KeepsFixed A u ∧
    19 / 10 * lmChisq A V u < lmChisq A V r.p := by
  have h := bnd_run
  rcases hr : (levmar bndArgs bndUser solve2 inv2 100 100).1 with e | r
  · rw [hr] at h; cases h
  rw [hr] at h
  simp only [Except.toOption, Option.map_some, Option.some.injEq, Prod.mk.injEq] at h
  refine ⟨bndArgs, bndUser, bndFun, bndB, r, [0, 0], rfl, ⟨fun _ _ => rfl, fun _ => rfl⟩, rfl, ?_, ?_, ?_, hr, h.2.2, ?_, ⟨rfl, ?_⟩, ?_⟩
  · intro q _ t ht
    simp only [bndArgs, List.length_cons, List.length_nil] at ht ⊢
    interval_cases t <;> simp [bndFun, bndB, Finset.sum_range_succ]
  · intro u _ hu
    have h0 := hu 0 (by decide)
    have h1 := hu 1 (by decide)
    simp [bndArgs, Finset.sum_range_succ, bndB] at h0 h1
    intro i hi
    simp only [bndArgs, List.length_cons, List.length_nil] at hi
    interval_cases i
    · rw [h1] at h0; simpa using h0
    · exact h1
  · refine ⟨rfl, fun i hi => ⟨fun l hl => (by cases hl), fun l hl => ?_⟩⟩
    cases hl
    simp only [bndArgs, List.length_cons, List.length_nil] at hi
    interval_cases i <;> decide +kernel
  · refine ⟨rfl, fun i hi => ⟨fun l hl => (by cases hl), fun l hl => ?_⟩⟩
    cases hl
    simp only [bndArgs, List.length_cons, List.length_nil] at hi
    interval_cases i <;> decide +kernel
  · rintro i hi ⟨l, hl, -⟩
    cases hl
  · rw [h.1]
    simp only [lmChisq, bndArgs, List.length_cons, List.length_nil, Finset.sum_range_succ, Finset.sum_range_zero, bndFun, elem1]
    norm_num

end Npplus
