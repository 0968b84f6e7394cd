import Verif.Model.AtanOut
import Verif.Props.BasicElem

/-!
# C115: `atan(..., out=out)`
-/

set_option linter.unusedSectionVars false
namespace Npplus
open Npplus.Spec Npplus.Basic

namespace AtanAux

theorem canAssign_of {s t : List ℕ} (hl : s.length ≤ t.length) (hf : ∀ k, rdim s k = rdim t k ∨ rdim s k = 1) : canAssign s t = true := by
  unfold canAssign
  simp only [Bool.and_eq_true, decide_eq_true_eq, List.all_eq_true, Bool.or_eq_true, beq_iff_eq]
  exact ⟨hl, fun k _ => hf k⟩

theorem common_pair {s t : List ℕ} (hl : s.length ≤ t.length) (hf : ∀ k, rdim s k = rdim t k ∨ rdim s k = 1) : Common [t, s] t := by
  refine ⟨?_, ⟨t, by simp, rfl⟩, ?_, fun k => ⟨t, by simp, rfl⟩⟩
  · simpa using hl
  · intro u hu k
    simp only [List.mem_cons, List.not_mem_nil, or_false] at hu
    rcases hu with rfl | rfl
    · exact .inl rfl
    · exact hf k

/-- the values `atan(a, b, branch=c)` returns -/
theorem atan_val {a b c : NdArr ℝ} {sh : List ℕ} (h : Common [a.shape, b.shape, c.shape] sh) :
    ∃ r, atan a (some b) (some c) = .ok r ∧ r.shape = sh ∧ ∀ idx, ValidIdx sh idx →
      r.get idx = rmod (arctan2 (bget a idx) (bget b idx) - bget c idx) (2 * Real.pi) + bget c idx := by
  obtain ⟨s1, -, h1, h2⟩ := h.split
  have hz1 := NdArr.zip_ok_of (f := arctan2) h1
  have hz2 := NdArr.zip_ok_of (a := ⟨s1, fun idx => arctan2 (bget a idx) (bget b idx)⟩) (b := c)
    (f := fun t c => rmod (t - c) (2 * Real.pi)) h2
  have h3 : Common [sh, c.shape] sh := common_pair (h2.len c.shape (by simp)) (h2.fits _ (by simp))
  have hz3 := NdArr.zip_ok_of (a := ⟨sh, fun idx => rmod (bget (⟨s1, fun idx => arctan2 (bget a idx) (bget b idx)⟩ : NdArr ℝ) idx - bget c idx)
    (2 * Real.pi)⟩) (b := c) (f := (· + ·)) h3
  have hat : ∀ r, NdArr.zip (· + ·) (⟨sh, fun idx => rmod (bget (⟨s1, fun idx => arctan2 (bget a idx) (bget b idx)⟩ : NdArr ℝ) idx - bget c idx)
      (2 * Real.pi)⟩ : NdArr ℝ) c = r → atan a (some b) (some c) = r := by
    rintro r rfl
    unfold atan
    simp only [bind, Except.bind]
    rw [hz1]; simp only
    rw [hz2]
  refine ⟨_, hat _ hz3, rfl, fun idx hv => ?_⟩
  have e : bget (⟨sh, fun idx => rmod (bget (⟨s1, fun idx => arctan2 (bget a idx) (bget b idx)⟩ : NdArr ℝ) idx - bget c idx)
      (2 * Real.pi)⟩ : NdArr ℝ) idx = rmod (arctan2 (bget a idx) (bget b idx) - bget c idx) (2 * Real.pi) := by
    rw [bget_self (a := ⟨sh, _⟩) hv]
    show rmod (arctan2 (bget a (bcIdx s1 idx)) (bget b (bcIdx s1 idx)) - bget c idx) _ = _
    have hl : s1.length ≤ idx.length := by rw [hv.1]; exact h2.len _ (by simp)
    rw [NdArr.bget_comp (h1.len _ (by simp)) hl (h1.fits _ (by simp)), NdArr.bget_comp (h1.len _ (by simp)) hl (h1.fits _ (by simp))]
  simp only [e]

/-- what the code computes with `out` of the right shape; `c'` is the array `branch` after `out` was written -/
theorem atanOut_val {m : Mem} {a b c out : ℕ} (ha : canAssign (m a).shape (m out).shape = true) (hb : canAssign (m b).shape (m out).shape = true)
    (hl : (m c).shape.length ≤ (m out).shape.length) (hf : ∀ k, rdim (m c).shape k = rdim (m out).shape k ∨ rdim (m c).shape k = 1) :
    ∃ r m', atanOut m a (some b) (some c) out = (.ok r, m') ∧ r.shape = (m out).shape ∧ (m' out).shape = (m out).shape ∧
      (∀ i, i ≠ out → m' i = m i) ∧ ∀ idx, ValidIdx (m out).shape idx → (m' out).get idx = r.get idx ∧
        r.get idx = rmod (arctan2 (bget (m a) idx) (bget (m b) idx) - bget ((m.store out fun idx => arctan2 (bget (m a) idx) (bget (m b) idx)) c) idx)
          (2 * Real.pi) + bget ((m.store out fun idx => arctan2 (bget (m a) idx) (bget (m b) idx)) c) idx := by
  set m1 : Mem := m.store out fun idx => arctan2 (bget (m a) idx) (bget (m b) idx) with hm1
  have ho : m1 out = ⟨(m out).shape, fun idx => arctan2 (bget (m a) idx) (bget (m b) idx)⟩ := by simp [hm1, Mem.store]
  have hcs : (m1 c).shape = (m c).shape := by
    by_cases h : c = out
    · subst h; rw [ho]
    · simp [hm1, Mem.store, Function.update_of_ne h]
  have h3 : Common [(m out).shape, (m1 c).shape] (m out).shape := by rw [hcs]; exact common_pair hl hf
  have hz2 := NdArr.zip_ok_of (a := m1 out) (b := m1 c) (f := fun t c => rmod (t - c) (2 * Real.pi)) (sh := (m out).shape) (by rw [ho]; exact h3)
  have hz3 := NdArr.zip_ok_of (a := ⟨(m out).shape, fun idx => rmod (bget (m1 out) idx - bget (m1 c) idx) (2 * Real.pi)⟩) (b := m1 c) (f := (· + ·)) h3
  set r : NdArr ℝ := ⟨(m out).shape, fun idx => bget (⟨(m out).shape, fun idx => rmod (bget (m1 out) idx - bget (m1 c) idx) (2 * Real.pi)⟩ : NdArr ℝ) idx + bget (m1 c) idx⟩ with hrdef
  refine ⟨r, m1.store out fun idx => r.get idx, ?_, rfl, ?_, fun i hi => ?_, fun idx hv => ⟨?_, ?_⟩⟩
  · unfold atanOut Mem.ufunc2
    simp only [ha, hb, Bool.and_self, if_true]
    have e : m.store out (fun idx => arctan2 ((m a).get (bcIdx (m a).shape idx)) ((m b).get (bcIdx (m b).shape idx))) = m1 := rfl
    rw [e]
    simp only [bind, Except.bind]
    rw [hz2]
    simp only
    rw [hz3]
    simp only [Mem.assign]
    simp [ho, hrdef]
  · simp [Mem.store, ho]
  · simp only [Mem.store, hm1]
    rw [Function.update_of_ne hi, Function.update_of_ne hi]
  · simp [Mem.store]
  · simp only [hrdef]
    have e1 : ∀ g : List ℕ → ℝ, bget (⟨(m out).shape, g⟩ : NdArr ℝ) idx = g idx := fun g => bget_self (a := ⟨(m out).shape, g⟩) hv
    rw [e1, ho, e1]

end AtanAux

open AtanAux

/-- **C115**.  `atan(a, b, out=out, branch=c)` with an `out` of the shape of the result, which is not the array `c` itself: the returned array and
`out` both hold what `atan(a, b, branch=c)` returns, and no other array changes.  `out` may be `a` or `b`. -/
theorem C115_branch_partial {m : Mem} {a b c out : ℕ} (h : Common [(m a).shape, (m b).shape, (m c).shape] (m out).shape) (hc : c ≠ out) :
    ∃ r r' m', atan (m a) (some (m b)) (some (m c)) = .ok r ∧ atanOut m a (some b) (some c) out = (.ok r', m') ∧
      r'.Same r ∧ (m' out).Same r ∧ ∀ i, i ≠ out → m' i = m i := by
  obtain ⟨r, hr, hrs, hrv⟩ := atan_val h
  obtain ⟨r', m', h', hs', hmo, hother, hv'⟩ := atanOut_val (m := m) (a := a) (b := b) (c := c) (out := out) (canAssign_of (h.len _ (by simp)) (h.fits _ (by simp)))
    (canAssign_of (h.len _ (by simp)) (h.fits _ (by simp))) (h.len _ (by simp)) (h.fits _ (by simp))
  have key : ∀ idx, ValidIdx (m out).shape idx → r'.get idx = r.get idx := fun idx hv => by
    rw [(hv' idx hv).2, hrv idx hv]
    simp [Mem.store, Function.update_of_ne hc]
  refine ⟨r, r', m', hr, h', ⟨by rw [hs', hrs], fun idx hv => ?_⟩, ⟨by rw [hmo, hrs], fun idx hv => ?_⟩, hother⟩
  · rw [hs'] at hv; exact key idx hv
  · rw [hmo] at hv; rw [(hv' idx hv).1, key idx hv]

/-- **C115**, without `branch`: `out` itself is returned. -/
theorem C115_principal {m : Mem} {a b out : ℕ} (h : Common [(m a).shape, (m b).shape] (m out).shape) :
    ∃ r m', atan (m a) (some (m b)) = .ok r ∧ atanOut m a (some b) none out = (.ok (m' out), m') ∧
      (m' out).Same r ∧ ∀ i, i ≠ out → m' i = m i := by
  have hz1 := NdArr.zip_ok_of (f := arctan2) h
  refine ⟨⟨(m out).shape, fun idx => arctan2 (bget (m a) idx) (bget (m b) idx)⟩, m.store out fun idx => arctan2 (bget (m a) idx) (bget (m b) idx),
    ?_, ?_, ?_, fun i hi => ?_⟩
  · unfold atan
    simp only [bind, Except.bind, hz1]
    rfl
  · unfold atanOut Mem.ufunc2
    simp only [canAssign_of (h.len (m a).shape (by simp)) (h.fits _ (by simp)), canAssign_of (h.len (m b).shape (by simp)) (h.fits _ (by simp)),
      Bool.and_self, if_true]
    rfl
  · simp [Mem.store, NdArr.Same]
  · simp [Mem.store, Function.update_of_ne hi]

/-- **C115**, one argument (`branch` is ignored); `out` may be `a`. -/
theorem C115_one {m : Mem} {a out : ℕ} (branch : Option ℕ) (h : (m a).shape = (m out).shape) :
    ∃ r m', atan (m a) none = .ok r ∧ atanOut m a none branch out = (.ok (m' out), m') ∧
      (m' out).Same r ∧ ∀ i, i ≠ out → m' i = m i := by
  refine ⟨(m a).map Real.arctan, m.store out fun idx => Real.arctan ((m a).get (bcIdx (m a).shape idx)), rfl, ?_, ?_, fun i hi => ?_⟩
  · unfold atanOut Mem.ufunc1
    rw [if_pos (canAssign_of (by rw [h]) fun k => by rw [h]; exact .inl rfl)]
  · refine ⟨by simp [Mem.store, NdArr.map, h], fun idx hv => ?_⟩
    simp only [Mem.store, Function.update_self] at hv ⊢
    rw [← h] at hv
    rw [bcIdx_self hv]
    rfl
  · simp [Mem.store, Function.update_of_ne hi]

/-- **C115**, `out` is also the branch cut (`atan(a, b, out=c, branch=c)`): the cut is overwritten before it is used, and the result is the principal
value whatever the cut was. -/
theorem C115_alias_wrong {m : Mem} {a b out : ℕ} (h : Common [(m a).shape, (m b).shape, (m out).shape] (m out).shape) :
    ∃ r' m', atanOut m a (some b) (some out) out = (.ok r', m') ∧ ∀ idx, ValidIdx (m out).shape idx →
      (m' out).get idx = arctan2 (bget (m a) idx) (bget (m b) idx) := by
  obtain ⟨r', m', h', hs', hmo, hother, hv'⟩ := atanOut_val (m := m) (a := a) (b := b) (c := out) (out := out) (canAssign_of (h.len _ (by simp)) (h.fits _ (by simp)))
    (canAssign_of (h.len _ (by simp)) (h.fits _ (by simp))) (h.len _ (by simp)) (h.fits _ (by simp))
  refine ⟨r', m', h', fun idx hv => ?_⟩
  rw [(hv' idx hv).1, (hv' idx hv).2]
  have e : bget ((m.store out fun idx => arctan2 (bget (m a) idx) (bget (m b) idx)) out) idx = arctan2 (bget (m a) idx) (bget (m b) idx) := by
    simp only [Mem.store, Function.update_self]
    exact bget_self (a := ⟨(m out).shape, fun idx => arctan2 (bget (m a) idx) (bget (m b) idx)⟩) hv
  rw [e]
  simp [rmod]

/-- the points `(0, -1)`, with the branch cut at 0 -/
def atMem : Mem := fun i => ⟨[1], fun _ => [-1, 0, 0].getD i 0⟩

/-- **C115** refuted: `atan([-1], [0], branch=c)` with `c = [0]` is `3π/2`; with `out=c` it is `-π/2`, below the branch cut. -/
theorem C115_refuted : ∃ (m : Mem) (a b c : ℕ) (r r' : NdArr ℝ) (m' : Mem), atan (m a) (some (m b)) (some (m c)) = .ok r ∧
    atanOut m a (some b) (some c) c = (.ok r', m') ∧ ¬ (m' c).Same r ∧ (m' c).get [0] < bget (m c) [0] := by
  have h : Common [(atMem 0).shape, (atMem 1).shape, (atMem 2).shape] (atMem 2).shape := by
    refine ⟨by simp [atMem], ⟨[1], by simp [atMem], rfl⟩, ?_, fun k => ⟨[1], by simp [atMem], rfl⟩⟩
    intro s hs k
    left
    simp [atMem] at hs ⊢
    rw [hs]
  obtain ⟨r, hr, hrs, hrv⟩ := C63_branch h
  obtain ⟨r', m', h', hv'⟩ := C115_alias_wrong h
  have hval : ValidIdx (atMem 2).shape [0] := ⟨rfl, by simp [atMem]⟩
  have e : arctan2 (bget (atMem 0) [0]) (bget (atMem 1) [0]) = -(Real.pi / 2) := by
    unfold arctan2 bget atMem
    have : (⟨0, -1⟩ : ℂ) = -Complex.I := by apply Complex.ext <;> simp
    simpa [this] using Complex.arg_neg_I
  have h1 := hv' [0] hval
  rw [e] at h1
  have hz : bget (atMem 2) [0] = 0 := by simp [bget, atMem]
  have hpi := Real.pi_pos
  refine ⟨atMem, 0, 1, 2, r, r', m', hr, h', fun hs => ?_, by rw [h1, hz]; linarith⟩
  have h2 := (hrv [0] hval).2.1
  have h3 : (m' 2).shape = [1] := by rw [hs.1, hrs]; rfl
  rw [← hs.2 [0] (by rw [h3]; exact ⟨rfl, by simp⟩), h1, hz] at h2
  linarith

/-- the hypotheses of `C115_branch_partial` hold in particular for arrays of one shape, also with `out` the array `a` -/
example : Common [(atMem 0).shape, (atMem 1).shape, (atMem 2).shape] (atMem 0).shape ∧ (2 : ℕ) ≠ 0 :=
  ⟨⟨by simp [atMem], ⟨[1], by simp [atMem], rfl⟩, fun s hs k => by left; simp [atMem] at hs ⊢; rw [hs], fun k => ⟨[1], by simp [atMem], rfl⟩⟩, by decide⟩

end Npplus
