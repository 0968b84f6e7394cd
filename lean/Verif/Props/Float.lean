import Verif.Spec.Float
import Verif.Props.PwCore
import Verif.Props.Poly
import Verif.Props.BasicSpan
import Verif.Props.BasicAxis

/-!
# Properties C94, C95, C96: rounding errors

The functions of the model are run in an arbitrary floating point system: `s.Num` has the operations of the reals followed by a
rounding (no overflow or underflow), `s.u` is the unit roundoff.  `x.val` is the real number represented by `x`.
-/

set_option linter.unusedSectionVars false
namespace Npplus
open Npplus.Spec

section
variable {s : FloatSys}

/-- rounding changes a number by at most a factor `1 ± u` -/
theorem Spec.FloatSys.abs_rd (s : FloatSys) (x : ℝ) : |s.rd x| ≤ (1 + s.u) * |x| := by
  have h := s.rel x
  have : |s.rd x| ≤ |s.rd x - x| + |x| := by
    have := abs_add_le (s.rd x - x) x
    rwa [sub_add_cancel] at this
  linarith

/-- an operation on an approximate argument -/
theorem Spec.FloatSys.step (s : FloatSys) {a q Q : ℝ} {k : ℕ} (h : |a - q| ≤ ((1 + s.u) ^ k - 1) * Q) (hq : |q| ≤ Q) :
    |s.rd a - q| ≤ ((1 + s.u) ^ (k + 1) - 1) * Q := by
  have h1 := s.rel a
  have hu := s.u_nonneg
  have h2 : |a| ≤ |a - q| + |q| := by
    have := abs_add_le (a - q) q
    rwa [sub_add_cancel] at this
  have h3 : |s.rd a - q| ≤ |s.rd a - a| + |a - q| := by
    have := abs_add_le (s.rd a - a) (a - q)
    rwa [sub_add_sub_cancel] at this
  have h4 : |s.rd a - a| ≤ s.u * ((1 + s.u) ^ k * Q) := by
    refine h1.trans (mul_le_mul_of_nonneg_left ?_ hu)
    linarith
  rw [pow_succ]
  linarith

/-- one trip of the loop of `polyfun` -/
theorem horner_step {x p cn : s.Num} {q Q : ℝ} {k : ℕ} (h : |p.val - q| ≤ ((1 + s.u) ^ k - 1) * Q) (hq : |q| ≤ Q) :
    |(x • p + cn).val - (x.val * q + cn.val)| ≤ ((1 + s.u) ^ (k + 2) - 1) * (|x.val| * Q + |cn.val|) ∧
      |x.val * q + cn.val| ≤ |x.val| * Q + |cn.val| := by
  have hu := s.u_nonneg
  have b1 : |x.val * q| ≤ |x.val| * Q := by rw [abs_mul]; gcongr
  have h1 : |x.val * p.val - x.val * q| ≤ ((1 + s.u) ^ k - 1) * (|x.val| * Q) := by
    rw [← mul_sub, abs_mul]
    calc _ ≤ |x.val| * (((1 + s.u) ^ k - 1) * Q) := by gcongr
      _ = _ := by ring
  have h2 := s.step h1 b1
  have b2 : |x.val * q + cn.val| ≤ |x.val| * Q + |cn.val| := (abs_add_le _ _).trans (by linarith)
  refine ⟨?_, b2⟩
  rw [FloatSys.val_add, FloatSys.val_smul]
  refine s.step (k := k + 1) ?_ b2
  rw [add_sub_add_right_eq_sub]
  refine h2.trans ?_
  have : (0 : ℝ) ≤ (1 + s.u) ^ (k + 1) - 1 := by
    have : (1 : ℝ) ≤ (1 + s.u) ^ (k + 1) := one_le_pow₀ (by linarith)
    linarith
  rw [mul_add]
  have := mul_nonneg this (abs_nonneg cn.val)
  linarith

theorem horner_fold {x : s.Num} : ∀ (l : List s.Num) (p : s.Num) (q Q : ℝ) (k : ℕ), |p.val - q| ≤ ((1 + s.u) ^ k - 1) * Q → |q| ≤ Q →
    |(l.foldl (fun p cn => x • p + cn) p).val - (l.map (·.val)).foldl (fun p cn => x.val • p + cn) q| ≤
      ((1 + s.u) ^ (k + 2 * l.length) - 1) * (l.map (|·.val|)).foldl (fun p cn => |x.val| • p + cn) Q
  | [], p, q, Q, k, h, hq => by simpa using h
  | cn :: l, p, q, Q, k, h, hq => by
    obtain ⟨h1, h2⟩ := horner_step (x := x) (cn := cn) h hq
    have := horner_fold (x := x) l _ _ _ _ h1 h2
    rw [show k + 2 + 2 * l.length = k + 2 * (l.length + 1) by ring] at this
    exact this

/-- the exact polynomial -/
theorem polyfun_exact (c : List ℝ) (hc : c ≠ []) (x : ℝ) : polyfun c x = ∑ i ∈ Finset.range c.length, c.getD i 0 * x ^ i := by
  have h := (C01_polyfun c x).1 hc
  have : polyfunE c x = .ok (polyfun c x) := if_neg (by simpa using hc)
  rw [this] at h
  rw [Except.ok.inj h]
  simp [mul_comm]

theorem polyfun_err (c : List s.Num) (hc : c ≠ []) (x : s.Num) :
    |(polyfun c x).val - polyfun (c.map (·.val)) x.val| ≤
      ((1 + s.u) ^ (2 * (c.length - 1)) - 1) * polyfun (c.map (|·.val|)) |x.val| := by
  rcases List.eq_nil_or_concat c with rfl | ⟨c', b, rfl⟩
  · exact absurd rfl hc
  rcases List.eq_nil_or_concat c' with rfl | ⟨c'', a, rfl⟩
  · simp [polyfun, backFrom3, polysetup]
  · have e0 : ∀ {K V : Type} [Zero V] [Add V] [SMul K V] (l : List V) (a b : V) (x : K),
        polyfun ((l.concat a).concat b) x = l.reverse.foldl (fun p cn => x • p + cn) (a + x • b) := by
      intro K V _ _ _ l a b x
      simp [polyfun, backFrom3, polysetup]
    have hinit : |(a + x • b).val - (a.val + x.val • b.val)| ≤ ((1 + s.u) ^ 2 - 1) * (|a.val| + |x.val| • |b.val|) ∧
        |a.val + x.val • b.val| ≤ |a.val| + |x.val| • |b.val| := by
      have := horner_step (s := s) (x := x) (p := b) (cn := a) (q := b.val) (Q := |b.val|) (k := 0) (by simp) le_rfl
      simp only [smul_eq_mul, zero_add] at this ⊢
      rw [add_comm a.val, add_comm |a.val|]
      refine ⟨?_, this.2⟩
      have h := this.1
      rwa [FloatSys.val_add, add_comm _ a.val] at h
    have := horner_fold (x := x) c''.reverse _ _ _ 2 hinit.1 hinit.2
    rw [e0, List.map_concat, List.map_concat, e0, List.map_concat, List.map_concat, e0, ← List.map_reverse, ← List.map_reverse]
    convert this using 3
    simp
    ring

/-- C94.  `polyfun(c, x)` in floating point arithmetic: the error is at most `(1+u)^(2 deg) - 1` (about `2 deg u`) times the sum of
the absolute values of the terms. -/
theorem C94_polyfun (c : List s.Num) (hc : c ≠ []) (x : s.Num) :
    |(polyfun c x).val - ∑ i ∈ Finset.range c.length, (c.getD i 0).val * x.val ^ i| ≤
      ((1 + s.u) ^ (2 * (c.length - 1)) - 1) * ∑ i ∈ Finset.range c.length, |(c.getD i 0).val| * |x.val| ^ i := by
  have h := polyfun_err c hc x
  rw [polyfun_exact _ (by simpa using hc), polyfun_exact _ (by simpa using hc)] at h
  simp only [List.length_map] at h
  have e : ∀ (f : s.Num → ℝ), f 0 = 0 → ∀ i, f (c.getD i 0) = (c.map f).getD i 0 := by
    intro f hf i
    conv_rhs => rw [← hf]
    rw [List.getD_map]
  simp only [← e (·.val) rfl, ← e (|·.val|) abs_zero] at h
  exact h


/-! ### the value of a PwPoly -/

/-- the PwPoly with the real numbers represented by the coefficients and knots -/
noncomputable def exactOf (p : PwPoly s.Num s.Num) : PwPoly ℝ ℝ := ⟨p.xk.map (·.val), p.n, p.c.map (·.map (·.val))⟩

theorem pow_err {a b u : ℝ} (hu : 0 ≤ u) (h : |a - b| ≤ u * |b|) (k : ℕ) :
    |a ^ k - b ^ k| ≤ ((1 + u) ^ k - 1) * |b| ^ k ∧ |a| ^ k ≤ (1 + u) ^ k * |b| ^ k := by
  have ha : |a| ≤ (1 + u) * |b| := by
    have := abs_add_le (a - b) b
    rw [sub_add_cancel] at this
    linarith
  refine ⟨?_, by rw [← mul_pow]; exact pow_le_pow_left₀ (abs_nonneg _) ha k⟩
  induction k with
  | zero => simp
  | succ k ih =>
    have e : a ^ (k + 1) - b ^ (k + 1) = a * (a ^ k - b ^ k) + (a - b) * b ^ k := by ring
    rw [e]
    refine (abs_add_le _ _).trans ?_
    rw [abs_mul, abs_mul, abs_pow]
    have h1 : (0 : ℝ) ≤ (1 + u) ^ k - 1 := by
      have : (1 : ℝ) ≤ (1 + u) ^ k := one_le_pow₀ (by linarith)
      linarith
    calc _ ≤ (1 + u) * |b| * (((1 + u) ^ k - 1) * |b| ^ k) + u * |b| * |b| ^ k := by gcongr
      _ = _ := by ring

theorem getD_map0 (f : s.Num → ℝ) (hf : f 0 = 0) (c : List s.Num) (i : ℕ) : f (c.getD i 0) = (c.map f).getD i 0 := by
  conv_rhs => rw [← hf]
  rw [List.getD_map]

/-- C94.  `p(x)` in floating point arithmetic: the piece is the right one, and the error is at most `(1+u)^(3 deg) - 1` (about
`3 deg u`) times the sum of the absolute values of the terms. -/
theorem C94_call (p : PwPoly s.Num s.Num) (hp : WF (exactOf p)) (x : s.Num) {i : ℕ} (hi : InPiece (p.xk.map (·.val)) i x.val) :
    |(p.call x).val - pieceVal (exactOf p) i x.val| ≤ ((1 + s.u) ^ (3 * (p.n - 1)) - 1) *
      ∑ k ∈ Finset.range p.n, |((p.c.getD i []).getD k 0).val| * |x.val - origin (p.xk.map (·.val)) i| ^ k := by
  have hss : searchsorted p.xk x = i := by
    rw [← hi.eq_searchsorted]
    unfold searchsorted
    rw [List.countP_map]
    rfl
  have hne : p.xk ≠ [] := by have := hp.ne; simpa [exactOf] using this
  have hc : (p.c.getD i []).length = p.n := by
    have := hp.piece_length (i := i) (by simpa [exactOf] using hi.1)
    unfold piece exactOf at this
    simp only at this
    rw [show ([] : List ℝ) = ([] : List s.Num).map (·.val) from rfl, List.getD_map, List.length_map] at this
    exact this
  have hn : 1 ≤ p.n := hp.pos
  have ho : (p.xk0.getD i 0).val = origin (p.xk.map (·.val)) i := by
    unfold PwPoly.xk0 origin
    rw [getD_map0 (·.val) rfl]
    cases h : p.xk with
    | nil => exact absurd h hne
    | cons a l => cases i <;> simp [PwPoly.mkXk0]
  set o := origin (p.xk.map (·.val)) i with hodef
  set c := p.c.getD i [] with hcdef
  have hcall : p.call x = polyfun c (x - p.xk0.getD i 0) := by
    unfold PwPoly.call
    simp only [hss]
    rfl
  have hdx : (x - p.xk0.getD i 0).val = s.rd (x.val - o) := by rw [FloatSys.val_sub, ho]
  have hrel := s.rel (x.val - o)
  have hu := s.u_nonneg
  have h1 := C94_polyfun c (by intro h; rw [h] at hc; simp at hc; omega) (x - p.xk0.getD i 0)
  rw [hdx, hc] at h1
  have hpv : pieceVal (exactOf p) i x.val = ∑ k ∈ Finset.range p.n, (c.getD k 0).val * (x.val - o) ^ k := by
    unfold pieceVal piece exactOf
    simp only
    rw [show ([] : List ℝ) = ([] : List s.Num).map (·.val) from rfl, List.getD_map, ← hcdef, ← hodef]
    unfold polyVal
    rw [List.length_map, hc]
    refine Finset.sum_congr rfl fun k _ => ?_
    rw [← getD_map0 (·.val) rfl, smul_eq_mul, mul_comm]
  rw [hcall, hpv]
  have hE : (0 : ℝ) ≤ (1 + s.u) ^ (2 * (p.n - 1)) - 1 := by
    have : (1 : ℝ) ≤ (1 + s.u) ^ (2 * (p.n - 1)) := one_le_pow₀ (by linarith)
    linarith
  calc _ ≤ |(polyfun c (x - p.xk0.getD i 0)).val - ∑ k ∈ Finset.range p.n, (c.getD k 0).val * s.rd (x.val - o) ^ k| +
        |∑ k ∈ Finset.range p.n, (c.getD k 0).val * s.rd (x.val - o) ^ k - ∑ k ∈ Finset.range p.n, (c.getD k 0).val * (x.val - o) ^ k| :=
        abs_sub_le _ _ _
    _ ≤ ((1 + s.u) ^ (2 * (p.n - 1)) - 1) * ∑ k ∈ Finset.range p.n, |(c.getD k 0).val| * |s.rd (x.val - o)| ^ k +
        ∑ k ∈ Finset.range p.n, |(c.getD k 0).val| * (((1 + s.u) ^ k - 1) * |x.val - o| ^ k) := by
        refine add_le_add h1 ?_
        rw [← Finset.sum_sub_distrib]
        refine (Finset.abs_sum_le_sum_abs _ _).trans (Finset.sum_le_sum fun k _ => ?_)
        rw [← mul_sub, abs_mul]
        exact mul_le_mul_of_nonneg_left (pow_err hu hrel k).1 (abs_nonneg _)
    _ ≤ _ := by
        rw [Finset.mul_sum, Finset.mul_sum, ← Finset.sum_add_distrib]
        refine Finset.sum_le_sum fun k hk => ?_
        have hk : k ≤ p.n - 1 := by have := Finset.mem_range.1 hk; omega
        have a := (pow_err hu hrel k).2
        have b : (1 + s.u) ^ k ≤ (1 + s.u) ^ (p.n - 1) := pow_le_pow_right₀ (by linarith) hk
        have hcn := abs_nonneg (c.getD k 0).val
        calc _ ≤ ((1 + s.u) ^ (2 * (p.n - 1)) - 1) * (|(c.getD k 0).val| * ((1 + s.u) ^ k * |x.val - o| ^ k)) +
              |(c.getD k 0).val| * (((1 + s.u) ^ k - 1) * |x.val - o| ^ k) := by gcongr
          _ = ((1 + s.u) ^ (2 * (p.n - 1)) * (1 + s.u) ^ k - 1) * (|(c.getD k 0).val| * |x.val - o| ^ k) := by ring
          _ ≤ ((1 + s.u) ^ (2 * (p.n - 1)) * (1 + s.u) ^ (p.n - 1) - 1) * (|(c.getD k 0).val| * |x.val - o| ^ k) := by gcongr
          _ = _ := by rw [← pow_add]; congr 3; ring

/-! ### sums -/

theorem accum_err (f : ℕ → s.Num) (g G : ℕ → ℝ) (m : ℕ) (h : ∀ i, |(f i).val - g i| ≤ ((1 + s.u) ^ m - 1) * G i) (hG : ∀ i, |g i| ≤ G i) (k : ℕ) :
    |(NdArr.accum f k).val - ∑ i ∈ Finset.range (k + 1), g i| ≤ ((1 + s.u) ^ (m + k) - 1) * ∑ i ∈ Finset.range (k + 1), G i := by
  have hu := s.u_nonneg
  induction k with
  | zero => simpa [NdArr.accum] using h 0
  | succ k ih =>
    rw [NdArr.accum, FloatSys.val_add, Finset.sum_range_succ g (k + 1), Finset.sum_range_succ G (k + 1)]
    refine s.step (k := m + k) ?_ ?_
    · rw [add_sub_add_comm, mul_add]
      refine (abs_add_le _ _).trans (add_le_add ih ((h _).trans ?_))
      have hGn : 0 ≤ G (k + 1) := (abs_nonneg _).trans (hG _)
      have : (1 + s.u) ^ m ≤ (1 + s.u) ^ (m + k) := pow_le_pow_right₀ (by linarith) (by omega)
      gcongr
    · exact (abs_add_le _ _).trans (add_le_add ((Finset.abs_sum_le_sum_abs _ _).trans (Finset.sum_le_sum fun i _ => hG i)) (hG _))

/-- adding a nonnegative number does not decrease a floating point number -/
theorem le_add_float {a b : s.Num} (hb : 0 ≤ b.val) : a.val ≤ (a + b).val := by
  rw [FloatSys.val_add, ← FloatSys.rd_val a]
  refine s.mono ?_
  rw [FloatSys.rd_val]
  linarith

theorem add_zero_float (a : s.Num) : a + 0 = a := by
  rw [← FloatSys.val_inj, FloatSys.val_add, FloatSys.val_zero, add_zero, FloatSys.rd_val]

/-- `cum` with any operations -/
theorem cum_ops {K : Type} [Zero K] [Add K] (a : NdArr K) {axis : ℤ} {k : ℕ} (hax : IsAxis a.shape.length axis k) :
    ∃ r, Basic.cum a (some axis) = .ok r ∧ r.shape = a.shape.set k (a.shape.getD k 0 + 1) ∧
      ∀ idx, ValidIdx r.shape idx → r.get idx = if idx.getD k 0 = 0 then 0 else NdArr.accum (fun i => a.get (idx.set k i)) (idx.getD k 0 - 1) := by
  have hne : a.shape ≠ [] := by intro h; have := hax.1; rw [h] at this; simp at this
  refine ⟨NdArr.concatAx k ⟨a.shape.set k 1, fun _ => 0⟩ (a.cumsumAx k), ?_, ?_, ?_⟩
  · unfold Basic.cum
    rw [if_neg hne]
    simp only [bind, Except.bind, pure, Except.pure, normAxis_of hax]
  · simp only [NdArr.concatAx, NdArr.cumsumAx, List.set_set, getD_set_self hax.1, add_comm]
  · intro idx hv
    have hl : idx.length = a.shape.length := by
      have := hv.1
      simpa [NdArr.concatAx] using this
    simp only [NdArr.concatAx, NdArr.cumsumAx, getD_set_self hax.1, Nat.lt_one_iff]
    split
    · rfl
    · rw [getD_set_self (by have := hax.1; omega)]
      simp only [List.set_set]

/-- C96.  `cum(a, axis)` in floating point arithmetic: the first element is 0, the error of the sum of the first `k` elements is at
most `(1+u)^(k-1) - 1` times the sum of their absolute values, and the result is nondecreasing if the elements are nonnegative. -/
theorem C96_cum (a : NdArr s.Num) {axis : ℤ} {k : ℕ} (hax : IsAxis a.shape.length axis k) :
    ∃ r, Basic.cum a (some axis) = .ok r ∧ r.shape = a.shape.set k (a.shape.getD k 0 + 1) ∧ ∀ idx, ValidIdx r.shape idx →
      (idx.getD k 0 = 0 → r.get idx = 0) ∧
      |(r.get idx).val - ∑ i ∈ Finset.range (idx.getD k 0), (a.get (idx.set k i)).val| ≤
        ((1 + s.u) ^ (idx.getD k 0 - 1) - 1) * ∑ i ∈ Finset.range (idx.getD k 0), |(a.get (idx.set k i)).val| ∧
      (0 < idx.getD k 0 → (∀ i, 0 ≤ (a.get (idx.set k i)).val) → r.get (idx.set k (idx.getD k 0 - 1)) ≤ r.get idx) := by
  obtain ⟨r, h1, h2, h3⟩ := cum_ops a hax
  refine ⟨r, h1, h2, fun idx hv => ⟨fun h => by rw [h3 idx hv, if_pos h], ?_, fun h0 hnn => ?_⟩⟩
  · rw [h3 idx hv]
    split
    · rename_i h; rw [h]; simp
    · have := accum_err (fun i => a.get (idx.set k i)) (fun i => (a.get (idx.set k i)).val) (fun i => |(a.get (idx.set k i)).val|) 0
        (fun i => by simp) (fun i => le_rfl) (idx.getD k 0 - 1)
      rwa [zero_add, show idx.getD k 0 - 1 + 1 = idx.getD k 0 by omega] at this
  · have hk : k < idx.length := by
      have h1 := hv.1
      rw [h2, List.length_set] at h1
      have := hax.1
      omega
    have hv' : ValidIdx r.shape (idx.set k (idx.getD k 0 - 1)) := by
      rw [h2, valid_set hax.1] at hv ⊢
      refine ⟨by simpa using hv.1, ?_, fun j hj hjk => ?_⟩
      · rw [getD_set_self hk]; have := hv.2.1; omega
      · rw [getD_set_ne hjk]; exact hv.2.2 j hj hjk
    rw [h3 idx hv, if_neg (by omega), h3 _ hv', getD_set_self hk]
    simp only [List.set_set]
    rw [← FloatSys.val_le]
    split
    · rename_i h
      rw [h]
      exact hnn 0
    · rename_i h
      obtain ⟨m, hm⟩ : ∃ m, idx.getD k 0 = m + 2 := ⟨idx.getD k 0 - 2, by omega⟩
      rw [hm]
      exact le_add_float (hnn _)

/-- C96.  `zcen(a, axis)` in floating point arithmetic: the mean of two neighbours is between them (no less than the smaller one, no
greater than the larger one), with a relative error of at most `u`. -/
theorem C96_zcen (hu : 2 * s.u ≤ 1) (a : NdArr s.Num) {axis : ℤ} {k : ℕ} (hax : IsAxis a.shape.length axis k) (hn : 2 ≤ a.shape.getD k 0) :
    ∃ r, Basic.zcen a axis = .ok r ∧ r.shape = a.shape.set k (a.shape.getD k 0 - 1) ∧ ∀ idx, ValidIdx r.shape idx →
      min (a.get idx) (a.get (idx.set k (idx.getD k 0 + 1))) ≤ r.get idx ∧ r.get idx ≤ max (a.get idx) (a.get (idx.set k (idx.getD k 0 + 1))) ∧
      |(r.get idx).val - ((a.get idx).val + (a.get (idx.set k (idx.getD k 0 + 1))).val) / 2| ≤
        s.u * |((a.get idx).val + (a.get (idx.set k (idx.getD k 0 + 1))).val) / 2| := by
  have hne : a.shape ≠ [] := by intro h; have := hax.1; rw [h] at this; simp at this
  obtain ⟨r, h1, h2, h3⟩ := zip_same (f := fun u v : s.Num => (u + v) * (1 / 2))
    (a := a.sliceAx k 1 (a.shape.getD k 0 - 1)) (b := a.sliceAx k 0 (a.shape.getD k 0 - 1)) rfl
  refine ⟨r, ?_, h2, fun idx hv => ?_⟩
  · unfold Basic.zcen
    rw [if_neg hne]
    simp only [bind, Except.bind, pure, Except.pure, normAxis_of hax]
    rw [if_neg (by omega)]
    exact h1
  · rw [h3 idx (h2 ▸ hv)]
    simp only [NdArr.sliceAx, Nat.add_zero, set_getD_self]
    set y := a.get (idx.set k (idx.getD k 0 + 1))
    set x := a.get idx
    have h1 : (1 : s.Num).val = 1 := by
      rw [FloatSys.val_one]
      have := s.int_mem 1 (by have := s.u_nonneg; simp; linarith)
      exact s.fix _ (by simpa using this)
    have h2 : ((2 : ℕ) : s.Num).val = 2 := by
      rw [FloatSys.val_natCast]
      have := s.int_mem 2 (by simpa using hu)
      exact s.fix _ (by simpa using this)
    have hh : ((1 : s.Num) / ((2 : ℕ) : s.Num)).val = 1 / 2 := by
      rw [FloatSys.val_div, h1, h2]
      exact s.fix _ (s.half _ (by rw [← h1]; exact (1 : s.Num).2))
    have e : ((y + x) * (1 / ((2 : ℕ) : s.Num))).val = s.rd (y.val + x.val) / 2 := by
      rw [FloatSys.val_mul, hh, FloatSys.val_add, mul_one_div]
      exact s.fix _ (s.half _ (s.mem _))
    have hr : ((y + x) * (1 / 2)).val = s.rd (y.val + x.val) / 2 := e
    have lo : ∀ t : s.Num, t.val ≤ y.val → t.val ≤ x.val → t.val ≤ s.rd (y.val + x.val) / 2 := by
      intro t h1 h2
      have := s.mono (show 2 * t.val ≤ y.val + x.val by linarith)
      rw [s.fix (2 * t.val) (s.two_mul _ t.2)] at this
      linarith
    have hi : ∀ t : s.Num, y.val ≤ t.val → x.val ≤ t.val → s.rd (y.val + x.val) / 2 ≤ t.val := by
      intro t h1 h2
      have := s.mono (show y.val + x.val ≤ 2 * t.val by linarith)
      rw [s.fix (2 * t.val) (s.two_mul _ t.2)] at this
      linarith
    refine ⟨?_, ?_, ?_⟩
    · rw [← FloatSys.val_le, hr]
      exact lo _ (FloatSys.val_le.2 (min_le_right _ _)) (FloatSys.val_le.2 (min_le_left _ _))
    · rw [← FloatSys.val_le, hr]
      exact hi _ (FloatSys.val_le.2 (le_max_right _ _)) (FloatSys.val_le.2 (le_max_left _ _))
    · rw [hr, add_comm x.val, ← sub_div, abs_div, abs_div, abs_two, ← mul_div_assoc]
      exact div_le_div_of_nonneg_right (s.rel _) (by norm_num)

/-! ### span -/

/-- C95.  `span(start, stop, num)` in floating point arithmetic (`num` representable): the first value is exactly `start` and the last
exactly `stop`; each value is within `(1+u) ((1+u)^(i+1) - 1) i |d| + u |start + i d|` of `start + i d`, where `d` is the exact step;
and for `start ≤ stop` the values before the last one are nondecreasing and not below `start`. -/
theorem C95_span {start stop : NdArr s.Num} {sh : List ℕ} (h : Common [start.shape, stop.shape] sh) {num : ℕ} (hn : 2 ≤ num)
    (hu : num * s.u ≤ 1) {axis : ℤ} {k : ℕ} (hax : IsAxis (sh.length + 1) axis k) :
    ∃ r, Basic.span start stop num axis = .ok r ∧ r.shape = sh.insertIdx k num ∧ ∀ idx, ValidIdx sh idx →
      r.get (idx.insertIdx k 0) = bget start idx ∧ r.get (idx.insertIdx k (num - 1)) = bget stop idx ∧
      (∀ i, i + 1 < num → |(r.get (idx.insertIdx k i)).val -
          ((bget start idx).val + i * (((bget stop idx).val - (bget start idx).val) / (num - 1)))| ≤
        (1 + s.u) * (((1 + s.u) ^ (i + 1) - 1) * (i * |((bget stop idx).val - (bget start idx).val) / (num - 1)|)) +
          s.u * |(bget start idx).val + i * (((bget stop idx).val - (bget start idx).val) / (num - 1))|) ∧
      (bget start idx ≤ bget stop idx → ∀ i, i + 2 < num → r.get (idx.insertIdx k i) ≤ r.get (idx.insertIdx k (i + 1))) := by
  obtain ⟨r, h1, h2, h3⟩ := span_ops add_zero_float h (num := (num : ℤ)) (by omega) hax
  have hun := s.u_nonneg
  refine ⟨r, h1, by simpa using h2, fun idx hv => ?_⟩
  have hcast : (((num : ℤ) - 1 : ℤ) : s.Num).val = (num : ℝ) - 1 := by
    rw [FloatSys.val_intCast]
    have hnn : (0 : ℝ) ≤ (num : ℝ) - 1 := by
      have : (2 : ℝ) ≤ num := by exact_mod_cast hn
      linarith
    have := s.int_mem ((num : ℤ) - 1) (by push_cast; rw [abs_of_nonneg hnn]; nlinarith)
    rw [s.fix _ this]
    push_cast
    rfl
  set A := bget start idx
  set B := bget stop idx
  set δ : s.Num := (B - A) / (((num : ℤ) - 1 : ℤ) : s.Num) with hδ
  set d : ℝ := (B.val - A.val) / (num - 1) with hd
  have hδv : δ.val = s.rd (s.rd (B.val - A.val) / (num - 1)) := by
    rw [hδ, FloatSys.val_div, hcast, FloatSys.val_sub]
  have hnpos : (0 : ℝ) < (num : ℝ) - 1 := by
    have : (2 : ℝ) ≤ num := by exact_mod_cast hn
    linarith
  have hδe : |δ.val - d| ≤ ((1 + s.u) ^ 2 - 1) * |d| := by
    rw [hδv]
    refine s.step (k := 1) ?_ le_rfl
    rw [hd, ← sub_div, abs_div, abs_div, ← mul_div_assoc]
    refine div_le_div_of_nonneg_right ?_ (abs_nonneg _)
    simpa using s.rel (B.val - A.val)
  have hval : ∀ i : ℕ, i + 1 < num → r.get (idx.insertIdx k i) = if i = 0 then A else A + NdArr.accum (fun _ => δ) (i - 1) := by
    intro i hi
    rw [h3 idx hv i (by omega), if_neg (by omega)]
  refine ⟨?_, ?_, fun i hi => ?_, fun hle i hi => ?_⟩
  · rw [hval 0 (by omega), if_pos rfl]
  · rw [h3 idx hv (num - 1) (by omega), if_pos (by omega)]
  · rw [hval i hi]
    split
    · rename_i h0
      subst h0
      simp only [Nat.cast_zero, zero_mul, add_zero, sub_self, abs_zero, mul_zero, zero_add]
      exact mul_nonneg hun (abs_nonneg _)
    · rename_i h0
      have e := accum_err (fun _ => δ) (fun _ => d) (fun _ => |d|) 2 (fun _ => hδe) (fun _ => le_rfl) (i - 1)
      rw [show i - 1 + 1 = i by omega, show 2 + (i - 1) = i + 1 by omega] at e
      simp only [Finset.sum_const, Finset.card_range, nsmul_eq_mul] at e
      rw [FloatSys.val_add]
      set acc := NdArr.accum (fun _ => δ) (i - 1)
      have h5 := s.rel (A.val + acc.val)
      have h6 : |A.val + acc.val - (A.val + i * d)| ≤ ((1 + s.u) ^ (i + 1) - 1) * (i * |d|) := by
        rwa [add_sub_add_left_eq_sub]
      have h7 : |A.val + acc.val| ≤ |A.val + acc.val - (A.val + i * d)| + |A.val + i * d| := by
        have := abs_add_le (A.val + acc.val - (A.val + i * d)) (A.val + i * d)
        rwa [sub_add_cancel] at this
      have h8 : |s.rd (A.val + acc.val) - (A.val + i * d)| ≤ |s.rd (A.val + acc.val) - (A.val + acc.val)| + |A.val + acc.val - (A.val + i * d)| :=
        abs_sub_le _ _ _
      have h9 := mul_le_mul_of_nonneg_left h7 hun
      have h10 := mul_le_mul_of_nonneg_left h6 hun
      nlinarith
  · have hδ0 : 0 ≤ δ.val := by
      rw [hδv]
      have z : s.rd 0 = 0 := s.fix _ s.zero_mem
      have h1 : s.rd 0 ≤ s.rd (B.val - A.val) := s.mono (sub_nonneg.2 (FloatSys.val_le.2 hle))
      rw [z] at h1
      have h2 := s.mono (div_nonneg h1 hnpos.le)
      rwa [z] at h2
    rw [hval (i + 1) (by omega), if_neg (by omega), hval i (by omega)]
    have hacc : ∀ m, 0 ≤ (NdArr.accum (fun _ => δ) m).val := by
      intro m
      induction m with
      | zero => exact hδ0
      | succ m ih => exact ih.trans (le_add_float hδ0)
    rw [← FloatSys.val_le]
    split
    · rename_i h0; subst h0
      exact le_add_float (hacc _)
    · rename_i h0
      obtain ⟨m, rfl⟩ : ∃ m, i = m + 1 := ⟨i - 1, by omega⟩
      rw [FloatSys.val_add, FloatSys.val_add]
      refine s.mono (add_le_add le_rfl ?_)
      exact le_add_float hδ0

/-- C95.  If the error bound before the last value is no more than the step, all values are nondecreasing and between `start` and
`stop`. -/
theorem C95_monotone {start stop : NdArr s.Num} {sh : List ℕ} (h : Common [start.shape, stop.shape] sh) {num : ℕ} (hn : 2 ≤ num)
    (hu : num * s.u ≤ 1) {axis : ℤ} {k : ℕ} (hax : IsAxis (sh.length + 1) axis k) {r : NdArr s.Num}
    (hr : Basic.span start stop num axis = .ok r) {idx : List ℕ} (hv : ValidIdx sh idx) (hle : bget start idx ≤ bget stop idx)
    (hb : (1 + s.u) * (((1 + s.u) ^ (num - 1) - 1) * ((num - 2) * (((bget stop idx).val - (bget start idx).val) / (num - 1)))) +
      s.u * max |(bget start idx).val| |(bget stop idx).val| ≤ ((bget stop idx).val - (bget start idx).val) / (num - 1)) :
    ∀ i j, i ≤ j → j < num → bget start idx ≤ r.get (idx.insertIdx k i) ∧ r.get (idx.insertIdx k i) ≤ r.get (idx.insertIdx k j) ∧
      r.get (idx.insertIdx k j) ≤ bget stop idx := by
  obtain ⟨r', h1, h2, h3⟩ := C95_span h hn hu hax
  rw [hr] at h1
  cases h1
  obtain ⟨e0, e1, e2, e3⟩ := h3 idx hv
  have e3 := e3 hle
  have hun := s.u_nonneg
  have hstep : ∀ i, i + 1 < num → r.get (idx.insertIdx k i) ≤ r.get (idx.insertIdx k (i + 1)) := by
    intro i hi
    rcases Nat.lt_or_ge (i + 2) num with h | h
    · exact e3 i h
    · have hi2 : i + 1 = num - 1 := by omega
      rw [hi2, e1, ← FloatSys.val_le]
      have := e2 i hi
      have hnum : (num : ℝ) = i + 2 := by
        rw [show num = i + 2 by omega]; push_cast; ring
      have hle' := FloatSys.val_le.2 hle
      rw [hnum] at this hb
      rw [show (i : ℝ) + 2 - 1 = i + 1 by ring] at this hb
      rw [show (i : ℝ) + 2 - 2 = i by ring] at hb
      rw [← hi2] at hb
      set A := (bget start idx).val
      set B := (bget stop idx).val
      have hd0 : 0 ≤ (B - A) / (i + 1 : ℝ) := div_nonneg (by linarith) (by positivity)
      have hB : B = A + (i + 1) * ((B - A) / (i + 1 : ℝ)) := by
        rw [mul_div_cancel₀ _ (by positivity)]; ring
      set d := (B - A) / (i + 1 : ℝ)
      rw [abs_of_nonneg hd0] at this
      have hmax : |A + i * d| ≤ max |A| |B| := by
        have h1 : A ≤ A + i * d := by nlinarith [mul_nonneg (Nat.cast_nonneg (α := ℝ) i) hd0]
        have h2 : A + i * d ≤ B := by rw [hB]; nlinarith
        exact abs_le_max_abs_abs h1 h2
      have h4 := (abs_le.1 this).2
      have h5 := mul_le_mul_of_nonneg_left hmax hun
      have h6 : A + i * d + d = B := by rw [hB]; ring
      linarith
  have hmono : ∀ i j, i ≤ j → j < num → r.get (idx.insertIdx k i) ≤ r.get (idx.insertIdx k j) := by
    intro i j hij
    induction j, hij using Nat.le_induction with
    | base => intro _; exact le_rfl
    | succ j hj ih => intro hlt; exact (ih (by omega)).trans (hstep j hlt)
  intro i j hij hj
  refine ⟨?_, hmono i j hij hj, ?_⟩
  · rw [← e0]; exact hmono 0 i (Nat.zero_le _) (by omega)
  · rw [← e1]; exact hmono j (num - 1) (by omega) (by omega)

end

/-! ### the hypotheses are satisfied in IEEE double precision (with an unlimited exponent) -/

section
/-- double precision -/
noncomputable abbrev dbl : FloatSys := Binary.sys 52

/-- a whole number in double precision -/
noncomputable abbrev dblInt (n : ℤ) : dbl.Num := dbl.round n

theorem dblInt_val (n : ℤ) (h : |n| ≤ 2 ^ 53) : (dblInt n).val = n := by
  refine dbl.fix _ (dbl.int_mem n ?_)
  have : |(n : ℝ)| ≤ 2 ^ 53 := by exact_mod_cast h
  show |(n : ℝ)| * (1 / 2 ^ (52 + 1)) ≤ 1
  rw [mul_one_div, div_le_one (by positivity)]
  exact this

example : |(polyfun [dblInt 1, dblInt 2, dblInt 3] (dblInt 4)).val - 57| ≤ ((1 + dbl.u) ^ 4 - 1) * 57 := by
  have := C94_polyfun [dblInt 1, dblInt 2, dblInt 3] (by simp) (dblInt 4)
  simp only [List.length_cons, List.length_nil, Finset.sum_range_succ, Finset.sum_range_zero, List.getD_cons_zero, List.getD_cons_succ,
    dblInt_val _ (show |(1 : ℤ)| ≤ 2 ^ 53 by norm_num), dblInt_val _ (show |(2 : ℤ)| ≤ 2 ^ 53 by norm_num),
    dblInt_val _ (show |(3 : ℤ)| ≤ 2 ^ 53 by norm_num), dblInt_val _ (show |(4 : ℤ)| ≤ 2 ^ 53 by norm_num)] at this
  norm_num at this ⊢
  exact this

/-- a histogram with two knots: the hypotheses of `C94_call` -/
example : WF (exactOf ⟨[dblInt 0, dblInt 1], 1, [[dblInt 5], [dblInt 6], [dblInt 7]]⟩) ∧
    InPiece ([dblInt 0, dblInt 1].map (·.val)) 1 (dblInt 1).val := by
  have h0 := dblInt_val 0 (by norm_num)
  have h1 := dblInt_val 1 (by norm_num)
  refine ⟨⟨by simp [exactOf], by simp [exactOf, h0, h1], by simp [exactOf], by simp [exactOf], by simp [exactOf]⟩, by simp, ?_, ?_⟩
  · intro j hj hj1
    have : j = 0 := by omega
    subst this
    simp [h0, h1]
  · intro j hj hj1
    have : j = 1 := by simp at hj; omega
    subst this
    simp

/-- `span(0, 10, 11)`: the hypotheses of `C95_monotone` -/
example : (11 : ℕ) * dbl.u ≤ 1 ∧ (1 + dbl.u) * (((1 + dbl.u) ^ (11 - 1) - 1) * (((11 : ℕ) - 2) * (((dblInt 10).val - (dblInt 0).val) / ((11 : ℕ) - 1)))) +
      dbl.u * max |(dblInt 0).val| |(dblInt 10).val| ≤ ((dblInt 10).val - (dblInt 0).val) / ((11 : ℕ) - 1) := by
  rw [dblInt_val 0 (by norm_num), dblInt_val 10 (by norm_num)]
  have : dbl.u = 1 / 2 ^ 53 := rfl
  rw [this]
  norm_num

example : 2 * dbl.u ≤ 1 := by
  have : dbl.u = 1 / 2 ^ 53 := rfl
  rw [this]; norm_num
end
end Npplus
