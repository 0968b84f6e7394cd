import Verif.Model.PerPw
import Verif.Lemmas.PwPoly
import Verif.Props.PwCore
import Mathlib.Data.Rat.Floor

/-!
# Properties C19 (components), C20 (pickle), C23 (periodic functions)
-/

set_option linter.unusedSectionVars false
namespace Npplus
open Spec PwPoly

variable {K : Type} [Field K] [LinearOrder K] [IsStrictOrderedRing K]
variable {V : Type} [AddCommGroup V] [Module K V]

/-! ## C19 -/

theorem polyfun_comp {d : ℕ} {ds : List ℕ} (l : List (Vals K (d :: ds))) (i : Fin d) (x : K) :
    polyVal (l.map (fun v => Vals.get v i)) x = Vals.get (polyVal l x) i := by
  induction l with
  | nil => rw [List.map_nil, polyVal_nil, polyVal_nil]; rfl
  | cons a l ih => rw [List.map_cons, polyVal_cons, ih, polyVal_cons]; rfl

theorem comp_WF {d : ℕ} {ds : List ℕ} {p : PwPoly K (Vals K (d :: ds))} (hp : WF p) (i : Fin d) :
    WF (p.comp i) := by
  refine ⟨hp.ne, hp.inc, by simpa [comp] using hp.len, hp.pos, ?_⟩
  intro l hl
  simp only [comp, List.mem_map] at hl
  obtain ⟨m, hm, rfl⟩ := hl
  simpa [comp] using hp.row m hm

theorem comp_call {d : ℕ} {ds : List ℕ} {p : PwPoly K (Vals K (d :: ds))} (hp : WF p) (i : Fin d)
    (x : K) : (p.comp i).call x = Vals.get (p.call x) i := by
  rw [call_eq (comp_WF hp i), call_eq hp]
  unfold pieceVal piece comp
  simp only
  have h1 := searchsorted_le p.xk x
  rw [getD_map_ne _ _ _ (by rw [hp.len]; omega) [], polyfun_comp]

/-- **C19.** For every shape and every tuple of integer indices (negative ones included)
`p[key](x) = p(x)[key]` for all `x`: they fail with the same exception or give the same value; `len(p)`
is the first dimension, TypeError for a scalar function. -/
theorem C19_components (dims : List ℕ) (p : PwPoly K (Vals K dims)) (hp : WF p) (key : List ℤ) (x : K) :
    (match PwPoly.getitem dims p key with
      | .error e => .error e
      | .ok ⟨ds, q⟩ => .ok (⟨ds, q.call x⟩ : Σ ds, Vals K ds)) = indexVals dims (p.call x) key ∧
    (dims = [] → PwPoly.len dims p = .error .typeError) ∧
    (∀ d ds, dims = d :: ds → PwPoly.len dims p = .ok d) := by
  refine ⟨?_, fun h => by subst h; rfl, fun d ds h => by subst h; rfl⟩
  induction key generalizing dims with
  | nil => cases dims <;> simp [PwPoly.getitem, indexVals]
  | cons k ks ih =>
    cases dims with
    | nil => simp [PwPoly.getitem, indexVals]
    | cons d ds =>
      simp only [PwPoly.getitem, indexVals]
      cases h : npIndex d k with
      | none => simp
      | some i =>
        simp only
        rw [ih ds (p.comp i) (comp_WF hp i), comp_call hp]

/-- The index arithmetic: index `k` and index `k - d` select the same component. -/
theorem C19_negative_index (d : ℕ) (k : ℕ) (h : k < d) :
    npIndex d k = some ⟨k, h⟩ ∧ npIndex d ((k : ℤ) - d) = some ⟨k, h⟩ := by
  constructor
  · unfold npIndex
    rw [dif_pos (by omega)]; simp
  · unfold npIndex
    rw [dif_neg (by omega), dif_pos (by omega)]; simp

/-! ## C20 -/

/-- **C20** for PwPoly: restoring the pickled state gives back the object, so it evaluates identically
(value and derivatives) at every `x`. -/
theorem C20_pickle {p : PwPoly K V} (hp : WF p) :
    PwPoly.setstate p.getstate = p ∧ (PwPoly.setstate p.getstate).xk0 = p.getstate.xk0 ∧
    ∀ x nd, (PwPoly.setstate p.getstate).call x = p.call x ∧
      (PwPoly.setstate p.getstate).callN x nd = p.callN x nd := by
  have e : PwPoly.setstate p.getstate = p := by
    obtain ⟨xk, n, c⟩ := p
    cases xk with
    | nil => exact absurd rfl hp.ne
    | cons a l => rfl
  rw [e]
  exact ⟨rfl, rfl, fun x nd => ⟨rfl, rfl⟩⟩

/-- **C20, refuted for PerPwPoly**: the restored object of *every* PerPwPoly raises AttributeError when
called, at every `x`. -/
theorem C20_periodic_refuted [FloorRing K] (p : PerPwPoly K V) (x : K) (nd : ℕ) :
    (PerPwPoly.setstate p.getstate).call x = .error .attributeError ∧
    (PerPwPoly.setstate p.getstate).callN x nd = .error .attributeError := ⟨rfl, rfl⟩

/-! ## C23 -/

section per
variable [FloorRing K]

theorem pmod_nonneg (a : K) {b : K} (hb : 0 < b) : 0 ≤ pmod a b := by
  unfold pmod
  have := Int.floor_le (a / b)
  rw [le_div_iff₀ hb] at this
  rw [sub_nonneg]; linarith [mul_comm b (⌊a / b⌋ : K)]

theorem pmod_lt (a : K) {b : K} (hb : 0 < b) : pmod a b < b := by
  unfold pmod
  have := Int.lt_floor_add_one (a / b)
  rw [div_lt_iff₀ hb] at this
  linarith [mul_comm b (⌊a / b⌋ : K)]

theorem pmod_add (a : K) {b : K} (hb : 0 < b) (m : ℤ) : pmod (a + m * b) b = pmod a b := by
  unfold pmod
  rw [add_div, mul_div_assoc, div_self hb.ne', mul_one, Int.floor_add_intCast]
  push_cast; ring

theorem pmod_eq_self {a b : K} (h0 : 0 ≤ a) (h1 : a < b) : pmod a b = a := by
  unfold pmod
  have hb : 0 < b := lt_of_le_of_lt h0 h1
  have : ⌊a / b⌋ = 0 := by
    rw [Int.floor_eq_zero_iff]
    exact ⟨div_nonneg h0 hb.le, (div_lt_one hb).mpr h1⟩
  rw [this]; simp

/-- **C23.** A PerPwPoly needs at least two knots (TypeError otherwise).  With knots `x0 < ... < xl` its
period is `xl - x0`; it repeats with that period at every `x`; and within the period `x0 ≤ x < xl` it is
the polynomial of the piece of `p` containing `x` (of the first inner piece at `x0` itself), with all its
derivatives; so the extrapolation pieces of `p` do not matter. -/
theorem C23_periodic {p : PwPoly K V} (hp : WF p) :
    (p.xk.length < 2 → PerPwPoly.new p = .error .typeError) ∧
    (2 ≤ p.xk.length → ∃ P per, PerPwPoly.new p = .ok P ∧ P.period = some per ∧ 0 < per ∧
      per = p.xk.getD (p.xk.length - 1) 0 - p.xk.getD 0 0 ∧ WF P.base ∧
      (∀ x (m : ℤ), P.call (x + m * per) = P.call x ∧ ∀ nd, P.callN (x + m * per) nd = P.callN x nd) ∧
      (∀ x, p.xk.getD 0 0 ≤ x → x < p.xk.getD (p.xk.length - 1) 0 →
        ∀ i, InPiece p.xk i x → P.call x = .ok (pieceVal p (max i 1) x) ∧
          ∀ nd, (2 ≤ p.n ∨ nd = 0) → ∃ l, P.callN x nd = .ok l ∧ l.length = nd + 1 ∧
            ∀ k ≤ nd, l.getD k 0 = pieceDeriv p (max i 1) x k)) := by
  constructor
  · intro h; simp [PerPwPoly.new, h]
  intro h
  have hlen := hp.len
  set x0 := p.xk.getD 0 0 with hx0
  set xl := p.xk.getD (p.xk.length - 1) 0 with hxl
  have hlt : x0 < xl := by
    rw [hx0, hxl, List.getD_eq_getElem _ _ (by omega), List.getD_eq_getElem _ _ (by omega)]
    exact List.pairwise_iff_getElem.mp hp.inc 0 (p.xk.length - 1) (by omega) (by omega) (by omega)
  set c1 := p.c.set 0 (p.c.getD 1 []) with hc1
  set c2 := c1.set (c1.length - 1) (polyddx (c1.getD (c1.length - 1 - 1) [])
      (xl - p.xk.getD (p.xk.length - 2) 0) (p.n - 1)) with hc2
  have hc1l : c1.length = p.xk.length + 1 := by simp [hc1, hlen]
  have hc2l : c2.length = p.xk.length + 1 := by simp [hc2, hc1l]
  set q : PwPoly K V := ⟨p.xk, p.n, c2⟩ with hq
  have hinner : ∀ i, 1 ≤ i → i < p.xk.length → c2.getD i [] = p.c.getD i [] := by
    intro i h1 h2
    simp only [hc2, hc1, List.getD_eq_getElem?_getD, List.getElem?_set, List.length_set]
    rw [if_neg (by omega), if_neg (by omega)]
  have hzero : c2.getD 0 [] = p.c.getD 1 [] := by
    simp only [hc2, List.getD_eq_getElem?_getD, List.getElem?_set]
    rw [if_neg (by omega)]
    simp only [hc1, List.getElem?_set, if_true]
    rw [if_pos (by omega)]
    simp [List.getD_eq_getElem?_getD]
  have hlastlen : ((c2.getD p.xk.length []).length) = p.n := by
    have : c2.getD p.xk.length [] = polyddx (c1.getD (c1.length - 1 - 1) [])
      (xl - p.xk.getD (p.xk.length - 2) 0) (p.n - 1) := by
      simp only [hc2, List.getD_eq_getElem?_getD, List.getElem?_set]
      rw [if_pos (by omega), if_pos (by omega)]; simp
    rw [this]
    have e1 : c1.getD (c1.length - 1 - 1) [] = piece p (p.xk.length - 1) := by
      simp only [hc1, List.getD_eq_getElem?_getD, List.getElem?_set, List.length_set, piece]
      rw [if_neg (by omega)]
      congr 2; omega
    have hl := hp.piece_length (i := p.xk.length - 1) (by omega)
    have := hp.pos
    rw [e1, polyddx_eq _ _ _ (by omega), length_tcList]; omega
  have hWF : WF q := by
    refine ⟨hp.ne, hp.inc, hc2l, hp.pos, ?_⟩
    intro l hl
    obtain ⟨j, hj, rfl⟩ := List.getElem_of_mem hl
    simp only [hq, hc2l] at hj
    have e : ∀ j (h : j < q.c.length), q.c[j] = c2.getD j [] := by
      intro j h; rw [List.getD_eq_getElem _ _ h]
    rw [e]
    rcases Nat.eq_zero_or_pos j with h0 | h0
    · subst h0; rw [hzero]; exact hp.piece_length (i := 1) (by omega)
    · rcases Nat.lt_or_ge j p.xk.length with h1 | h1
      · rw [hinner j h0 h1]; exact hp.piece_length (i := j) (by omega)
      · have : j = p.xk.length := by omega
        subst this; exact hlastlen
  have hnew : PerPwPoly.new p = .ok ⟨q, some (xl - x0)⟩ := by
    simp only [PerPwPoly.new]
    rw [if_neg (by omega)]
  have hper : 0 < xl - x0 := sub_pos.mpr hlt
  refine ⟨⟨q, some (xl - x0)⟩, xl - x0, hnew, rfl, hper, rfl, hWF, ?_, ?_⟩
  · intro x m
    have : x + m * (xl - x0) - x0 = (x - x0) + m * (xl - x0) := by ring
    simp only [PerPwPoly.call, PerPwPoly.callN, hq]
    rw [← hx0, this, pmod_add _ hper]
    exact ⟨rfl, fun _ => rfl⟩
  · intro x h1 h2 i hi
    have hx : x0 + pmod (x - x0) (xl - x0) = x := by
      rw [pmod_eq_self (by linarith) (by linarith)]; ring
    have hil : i < p.xk.length := by
      rcases Nat.lt_or_ge i p.xk.length with h' | h'
      · exact h'
      · have := hi.2.1 (p.xk.length - 1) (by omega) (by omega)
        rw [hxl, List.getD_eq_getElem _ _ (by omega)] at h2
        exact absurd (lt_trans this h2) (lt_irrefl _)
    have hpc : ∀ k, pieceDeriv q i x k = pieceDeriv p (max i 1) x k := by
      intro k
      unfold pieceDeriv piece
      rcases Nat.eq_zero_or_pos i with h0 | h0
      · subst h0
        show polyDeriv (c2.getD 0 []) (x - origin p.xk 0) k = _
        rw [hzero]; rfl
      · rw [max_eq_left h0]
        show polyDeriv (c2.getD i []) (x - origin p.xk i) k = _
        rw [hinner i h0 hil]
    have hc4 := (C04_call_partial hWF x).2 i hi
    refine ⟨?_, ?_⟩
    · simp only [PerPwPoly.call]
      have hx' : q.xk.getD 0 0 + pmod (x - q.xk.getD 0 0) (xl - x0) = x := hx
      rw [hx', hc4.1]
      have := hpc 0
      unfold pieceDeriv at this
      rw [polyDeriv_zero, polyDeriv_zero] at this
      exact congrArg _ this
    · intro nd hnd
      refine ⟨q.callN x nd, ?_, (hc4.2 nd hnd).1, fun k hk => by rw [(hc4.2 nd hnd).2 k hk, hpc]⟩
      simp only [PerPwPoly.callN]
      have hx' : q.xk.getD 0 0 + pmod (x - q.xk.getD 0 0) (xl - x0) = x := hx
      rw [hx']

-- a saw tooth: p = x on (0,1), period 1
example : (do let P ← PerPwPoly.new (⟨[0, 1], 2, [[9, 9], [0, 1], [7, 7]]⟩ : PwPoly ℚ ℚ)
              P.call (-7/4)) = .ok (1/4 : ℚ) := by decide +kernel

end per
end Npplus
