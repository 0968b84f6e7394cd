import Verif.Lemmas.Fit
import Verif.Lemmas.SplineOk
import Mathlib.Tactic.LinearCombination

/-! # Lemmas for `plfit` -/

set_option linter.unusedSectionVars false

namespace Npplus
open Spec Finset
variable {K : Type} [Field K] [LinearOrder K] [IsStrictOrderedRing K] {m : ℕ}

/-- The contract of `solveh_banded(lower=True)`: what it returns is a solution, and a positive definite system is
solved. -/
structure SolveHOK (H : SolveH K) : Prop where
  sound : ∀ u n ab b x, H u n ab b = .ok x → Solves n (symBand u ab) x b
  complete : ∀ u n ab b, (∀ d : ℕ → K, (∃ i < n, d i ≠ 0) →
    0 < ∑ i ∈ range n, d i * ∑ j ∈ range n, symBand u ab i j * d j) → ∃ x, H u n ab b = .ok x

/-- An exact solver. -/
def exactH (K : Type) [Field K] [DecidableEq K] : SolveH K := fun u n ab b => cramer n (symBand u ab) b

theorem exactH_ok : SolveHOK (exactH K) where
  sound := fun _ _ _ _ _ h => cramer_sound h
  complete := fun u n ab b h => cramer_complete b (nonsing_iff_kernel.mpr fun v hv i hi => by
    by_contra hc
    have := h v ⟨i, hi, hc⟩
    have e : ∑ i ∈ range n, v i * ∑ j ∈ range n, symBand u ab i j * v j = 0 := by
      refine sum_eq_zero fun i hi => ?_
      have h0 := hv i (mem_range.mp hi)
      simp only [smul_eq_mul] at h0
      rw [h0, mul_zero]
    rw [e] at this
    exact absurd this (lt_irrefl _))

namespace Fit

/-- The normal matrix of a polyline fit as a bilinear form. -/
theorem tri_form {N nun : ℕ} {ix : ℕ → ℕ} (hix : ∀ t < N, ix t + 1 < nun) (w p q d v : ℕ → K) :
    ∑ k ∈ range nun, (bincount N ix (fun t => w t * q t * q t) k +
        bincount N (fun t => 1 + ix t) (fun t => w t * p t * p t) k) * (d k * v k) +
      ∑ k ∈ range (nun - 1), bincount N ix (fun t => w t * p t * q t) k * (d (k + 1) * v k + d k * v (k + 1)) =
    ∑ t ∈ range N, w t * (q t * d (ix t) + p t * d (ix t + 1)) * (q t * v (ix t) + p t * v (ix t + 1)) := by
  simp only [add_mul, sum_add_distrib]
  rw [sum_bincount (fun t ht => by have := hix t ht; omega) _ (fun k => d k * v k),
    sum_bincount (ix := fun t => 1 + ix t) (fun t ht => by have := hix t ht; omega) _ (fun k => d k * v k),
    sum_bincount (fun t ht => by have := hix t ht; omega) _ (fun k => d (k + 1) * v k + d k * v (k + 1)),
    ← sum_add_distrib, ← sum_add_distrib]
  refine sum_congr rfl fun t _ => ?_
  rw [add_comm 1 (ix t)]
  ring

theorem tri_rhs {N nun : ℕ} {ix : ℕ → ℕ} (hix : ∀ t < N, ix t + 1 < nun) (w p q y d : ℕ → K) :
    ∑ k ∈ range nun, (bincount N ix (fun t => w t * q t * y t) k +
        bincount N (fun t => 1 + ix t) (fun t => w t * p t * y t) k) * d k =
    ∑ t ∈ range N, w t * (q t * d (ix t) + p t * d (ix t + 1)) * y t := by
  simp only [add_mul, sum_add_distrib]
  rw [sum_bincount (fun t ht => by have := hix t ht; omega) _ d,
    sum_bincount (ix := fun t => 1 + ix t) (fun t ht => by have := hix t ht; omega) _ d, ← sum_add_distrib]
  refine sum_congr rfl fun t _ => ?_
  rw [add_comm 1 (ix t)]
  ring

theorem tri_band (len : ℕ) (a0 a1 d z : ℕ → K) :
    ∑ i ∈ range len, d i * ∑ j ∈ range len, symBand 1 (fun r j => if r = 0 then a0 j else a1 j) i j * z j =
    ∑ j ∈ range len, a0 j * (d j * z j) + ∑ j ∈ range (len - 1), a1 j * (d (j + 1) * z j + d j * z (j + 1)) := by
  rw [band_form]
  simp only [sum_range_one, sum_add_distrib, if_true, Nat.succ_ne_zero, if_false, Nat.zero_add, add_left_inj]
  congr 1
  · exact sum_congr rfl fun j _ => by ring
  · cases len with
    | zero => simp
    | succ l =>
      rw [sum_range_succ, if_neg (by omega), add_zero, Nat.add_sub_cancel]
      refine sum_congr rfl fun j hj => ?_
      rw [if_pos (by have := mem_range.mp hj; omega)]

/-- Weak form of a solved system. -/
theorem solves_weak {n : ℕ} {A : ℕ → ℕ → K} {z b : ℕ → K} (h : Solves n A z b) (d : ℕ → K) :
    ∑ i ∈ range n, d i * ∑ j ∈ range n, A i j * z j = ∑ i ∈ range n, b i * d i := by
  refine sum_congr rfl fun i hi => ?_
  have := h i (mem_range.mp hi)
  simp only [smul_eq_mul] at this
  rw [this, mul_comm]

/-- The result of `_plfitter` satisfies the normal equations in the free directions, and has the given end
values. -/
theorem plfitter_nonper {S : Scipy K} {H : SolveH K} (hH : SolveHOK H) {nun : ℕ} (h2 : 2 ≤ nun) {adiag asup b : ℕ → K}
    {lo hi : Option K} {v : ℕ → K} (h : plfitter S H nun adiag asup b lo hi false = .ok v) :
    (∀ l, lo = some l → v 0 = l) ∧ (∀ l, hi = some l → v (nun - 1) = l) ∧
    ∀ d : ℕ → K, (lo.isSome → d 0 = 0) → (hi.isSome → d (nun - 1) = 0) →
      ∑ k ∈ range nun, adiag k * (d k * v k) + ∑ k ∈ range (nun - 1), asup k * (d (k + 1) * v k + d k * v (k + 1)) =
      ∑ k ∈ range nun, b k * d k := by
  unfold plfitter at h
  rw [if_neg (by simp)] at h
  simp only [bind, Except.bind, pure, Except.pure, throw, throwThe, MonadExceptOf.throw] at h
  obtain ⟨n, rfl⟩ : ∃ n, nun = n + 2 := ⟨nun - 2, by omega⟩
  cases lo with
  | none =>
    cases hi with
    | none =>
      simp only [Option.isSome_none, Bool.false_eq_true, if_false, false_and, Nat.zero_add, Nat.sub_zero, and_false] at h
      cases hz : H 1 (n + 2) (fun r j => if r = 0 then adiag j else asup j) b with
      | error e => rw [hz] at h; cases h
      | ok z =>
        rw [hz] at h
        cases h
        refine ⟨by simp, by simp, fun d _ _ => ?_⟩
        have := solves_weak (hH.sound _ _ _ _ _ hz) d
        rw [tri_band] at this
        exact this
    | some hv =>
      simp only [Option.isSome_none, Option.isSome_some, Bool.false_eq_true, if_false, if_true, false_and, Nat.zero_add,
        Nat.sub_zero, true_and, and_false, and_true, Option.getD_some] at h
      rw [if_neg (by omega)] at h
      try simp only at h
      set b1 := Function.update b (n + 2 - 1 - 1) (b (n + 2 - 1 - 1) - hv * asup (n + 2 - 2)) with hb1
      cases hz : H 1 (n + 2 - 1) (fun r j => if r = 0 then adiag j else asup j) b1 with
      | error e => rw [hz] at h; cases h
      | ok z =>
        rw [hz] at h
        cases h
        refine ⟨by simp, fun l hl => ?_, fun d _ hd => ?_⟩
        · cases hl; simp
        have := solves_weak (hH.sound _ _ _ _ _ hz) d
        rw [tri_band] at this
        have hd := hd rfl
        simp only [show n + 2 - 1 = n + 1 by omega, show n + 1 - 1 = n by omega, show n + 2 - 2 = n by omega] at this hd hb1 ⊢
        rw [sum_range_succ _ (n + 1), sum_range_succ (fun k => b k * d k) (n + 1), sum_range_succ (fun k => asup k * _) n]
        have e1 : ∑ i ∈ range (n + 1), b1 i * d i = ∑ i ∈ range (n + 1), b i * d i - hv * asup n * d n := by
          rw [sum_range_succ, sum_range_succ, hb1, Function.update_self]
          have : ∑ i ∈ range n, Function.update b n (b n - hv * asup n) i * d i = ∑ i ∈ range n, b i * d i :=
            sum_congr rfl fun i hi => by
              rw [Function.update_of_ne (by have := mem_range.mp hi; omega)]
          rw [this]; ring
        rw [e1] at this
        have e2 : ∀ k ∈ range (n + 1), adiag k * (d k * if k = n + 1 then hv else z k) = adiag k * (d k * z k) :=
          fun k hk => by rw [if_neg (by have := mem_range.mp hk; omega)]
        have e3 : ∀ k ∈ range n, asup k * (d (k + 1) * (if k = n + 1 then hv else z k) +
            d k * if k + 1 = n + 1 then hv else z (k + 1)) = asup k * (d (k + 1) * z k + d k * z (k + 1)) :=
          fun k hk => by
            have := mem_range.mp hk
            rw [if_neg (by omega), if_neg (by omega)]
        rw [sum_congr rfl e2, sum_congr rfl e3, hd]
        simp only [if_true, zero_mul, mul_zero, add_zero, show ¬ n = n + 1 by omega, if_false]
        linear_combination this
  | some lv =>
    cases hi with
    | none =>
      simp only [Option.isSome_none, Option.isSome_some, Bool.false_eq_true, if_false, if_true, false_and,
        true_and, and_false, and_true, Option.getD_some] at h
      rw [if_neg (by omega)] at h
      try simp only at h
      set b1 := Function.update (fun k => b (1 + k)) 0 (b (1 + 0) - lv * asup 0) with hb1
      cases hz : H 1 (n + 2 - 1) (fun r j => if r = 0 then adiag (1 + j) else asup (1 + j)) b1 with
      | error e => rw [hz] at h; cases h
      | ok z =>
        rw [hz] at h
        cases h
        refine ⟨fun l hl => ?_, by simp, fun d hd _ => ?_⟩
        · cases hl; simp
        have := solves_weak (hH.sound _ _ _ _ _ hz) (fun k => d (1 + k))
        rw [tri_band (a0 := fun j => adiag (1 + j)) (a1 := fun j => asup (1 + j))] at this
        have hd := hd rfl
        simp only [show n + 2 - 1 = n + 1 by omega, show n + 1 - 1 = n by omega] at this ⊢
        rw [sum_range_succ' _ (n + 1), sum_range_succ' (fun k => b k * d k) (n + 1), sum_range_succ' (fun k => asup k * _) n]
        have e1 : ∑ i ∈ range (n + 1), b1 i * d (1 + i) = ∑ i ∈ range (n + 1), b (i + 1) * d (i + 1) - lv * asup 0 * d 1 := by
          rw [sum_range_succ', sum_range_succ', hb1, Function.update_self]
          have : ∑ i ∈ range n, Function.update (fun k => b (1 + k)) 0 (b (1 + 0) - lv * asup 0) (i + 1) * d (1 + (i + 1)) =
              ∑ i ∈ range n, b (i + 1 + 1) * d (i + 1 + 1) :=
            sum_congr rfl fun i hi => by
              rw [Function.update_of_ne (by omega), add_comm 1 (i + 1)]
          rw [this]; ring
        rw [e1] at this
        simp only [Nat.succ_ne_zero, if_false, add_tsub_cancel_right, if_true, hd, zero_mul, mul_zero, add_zero, Nat.add_comm 1] at this ⊢
        linear_combination this
    | some hv =>
      simp only [Option.isSome_some, if_true, true_and, and_true, Option.getD_some] at h
      rw [if_neg (by omega)] at h
      try simp only at h
      by_cases hn : n = 0
      · subst hn; simp at h
      obtain ⟨n, rfl⟩ : ∃ n', n = n' + 1 := ⟨n - 1, by omega⟩
      rw [if_neg (by omega)] at h
      try simp only at h
      set b0 := Function.update (fun k => b (1 + k)) 0 (b (1 + 0) - lv * asup 0) with hb0
      set b1 := Function.update b0 (n + 1 + 2 - 1 - 1 - 1) (b0 (n + 1 + 2 - 1 - 1 - 1) - hv * asup (n + 1 + 2 - 2)) with hb1
      cases hz : H 1 (n + 1 + 2 - 1 - 1) (fun r j => if r = 0 then adiag (1 + j) else asup (1 + j)) b1 with
      | error e => rw [hz] at h; cases h
      | ok z =>
        rw [hz] at h
        cases h
        refine ⟨fun l hl => ?_, fun l hl => ?_, fun d hd hd' => ?_⟩
        · cases hl; simp
        · cases hl; simp
        have := solves_weak (hH.sound _ _ _ _ _ hz) (fun k => d (1 + k))
        rw [tri_band (a0 := fun j => adiag (1 + j)) (a1 := fun j => asup (1 + j))] at this
        have hd := hd rfl
        have hd' := hd' rfl
        simp only [show n + 1 + 2 - 1 = n + 2 by omega, show n + 2 - 1 = n + 1 by omega, show n + 1 - 1 = n by omega,
          show n + 1 + 2 - 2 = n + 1 by omega] at this hd' hb1 ⊢
        have e0 : ∀ f : ℕ → K, ∑ k ∈ range (n + 1 + 2), f k = ∑ k ∈ range (n + 1), f (k + 1) + f 0 + f (n + 2) := by
          intro f; rw [sum_range_succ, sum_range_succ']
        have e0' : ∀ f : ℕ → K, ∑ k ∈ range (n + 2), f k = ∑ k ∈ range n, f (k + 1) + f 0 + f (n + 1) := by
          intro f; rw [sum_range_succ, sum_range_succ']
        rw [e0, e0 (fun k => b k * d k), e0']
        have e1 : ∑ i ∈ range (n + 1), b1 i * d (1 + i) = ∑ i ∈ range (n + 1), b (i + 1) * d (i + 1) - lv * asup 0 * d 1 -
            hv * asup (n + 1) * d (n + 1) := by
          have a1 : ∑ i ∈ range (n + 1), b1 i * d (1 + i) = ∑ i ∈ range (n + 1), b0 i * d (1 + i) - hv * asup (n + 1) * d (n + 1) := by
            rw [sum_range_succ, sum_range_succ, hb1, Function.update_self]
            have : ∑ i ∈ range n, Function.update b0 n (b0 n - hv * asup (n + 1)) i * d (1 + i) = ∑ i ∈ range n, b0 i * d (1 + i) :=
              sum_congr rfl fun i hi => by
                rw [Function.update_of_ne (by have := mem_range.mp hi; omega)]
            rw [this, add_comm 1 n]; ring
          have a2 : ∑ i ∈ range (n + 1), b0 i * d (1 + i) = ∑ i ∈ range (n + 1), b (i + 1) * d (i + 1) - lv * asup 0 * d 1 := by
            rw [sum_range_succ', sum_range_succ', hb0, Function.update_self]
            have : ∑ i ∈ range n, Function.update (fun k => b (1 + k)) 0 (b (1 + 0) - lv * asup 0) (i + 1) * d (1 + (i + 1)) =
                ∑ i ∈ range n, b (i + 1 + 1) * d (i + 1 + 1) :=
              sum_congr rfl fun i hi => by
                rw [Function.update_of_ne (by omega), add_comm 1 (i + 1)]
            rw [this]; ring
          rw [a1, a2]
        rw [e1] at this
        set V : ℕ → K := fun k => if k = 0 then lv else if k = n + 2 then hv else z (k - 1) with hV
        have v0 : V 0 = lv := by simp [hV]
        have vl : V (n + 2) = hv := by simp [hV]
        have vm : ∀ k ≤ n, V (k + 1) = z k := by
          intro k hk
          simp only [hV]
          rw [if_neg (by omega), if_neg (by omega), Nat.add_sub_cancel]
        have e2 : ∑ k ∈ range (n + 1), adiag (k + 1) * (d (k + 1) * V (k + 1)) = ∑ k ∈ range (n + 1), adiag (1 + k) * (d (1 + k) * z k) :=
          sum_congr rfl fun k hk => by
            rw [vm k (by have := mem_range.mp hk; omega), add_comm 1 k]
        have e3 : ∑ k ∈ range n, asup (k + 1) * (d (k + 1 + 1) * V (k + 1) + d (k + 1) * V (k + 1 + 1)) =
            ∑ k ∈ range n, asup (1 + k) * (d (1 + (k + 1)) * z k + d (1 + k) * z (k + 1)) :=
          sum_congr rfl fun k hk => by
            have := mem_range.mp hk
            rw [vm k (by omega), vm (k + 1) (by omega), add_comm 1 k, add_comm 1 (k + 1)]
        rw [e2, e3]
        simp only [Nat.zero_add, show n + 1 + 1 = n + 2 from rfl, hd, hd', if_true, zero_mul, mul_zero, add_zero, zero_add,
          show ¬ n + 2 = 0 by omega, if_false]
        linear_combination this

theorem plfitter_per {S : Scipy K} (hS : ScipyOK S) {H : SolveH K} {nun : ℕ} (h2 : 2 ≤ nun) {adiag asup b : ℕ → K}
    {lo hi : Option K} {v : ℕ → K} (h : plfitter S H nun adiag asup b lo hi true = .ok v) :
    v (nun - 1) = v 0 ∧ ∀ d : ℕ → K, d (nun - 1) = d 0 →
      ∑ k ∈ range nun, adiag k * (d k * v k) + ∑ k ∈ range (nun - 1), asup k * (d (k + 1) * v k + d k * v (k + 1)) =
      ∑ k ∈ range nun, b k * d k := by
  unfold plfitter at h
  rw [if_pos rfl] at h
  simp only [bind, Except.bind, pure, Except.pure] at h
  split at h
  · cases h
  next z hz =>
  cases h
  have hs := C39_solves_periodic hS hz
  obtain ⟨n, rfl⟩ : ∃ n, nun = n + 2 := ⟨nun - 2, by omega⟩
  simp only [show n + 2 - 1 = n + 1 by omega, show 2 - 1 = 1 from rfl, halfOf, if_true] at hs ⊢
  refine ⟨by rw [if_neg (by omega)], fun d hd => ?_⟩
  have := solves_weak hs d
  rw [cyclic_form] at this
  simp only [sum_range_one, if_true, Nat.succ_ne_zero, if_false, Nat.zero_add] at this
  set V : ℕ → K := fun k => if k = n + 1 then z 0 else z k with hV
  have vm : ∀ k ≤ n, V k = z k := fun k hk => by simp only [hV]; rw [if_neg (by omega)]
  have vl : V (n + 1) = z 0 := by simp [hV]
  have hw : ∀ j < n + 1, d ((j + 1) % (n + 1)) = d (j + 1) ∧ z ((j + 1) % (n + 1)) = V (j + 1) := by
    intro j hj
    rcases Nat.lt_or_ge j n with h | h
    · rw [Nat.mod_eq_of_lt (by omega), vm _ (by omega)]; exact ⟨rfl, rfl⟩
    · have : j = n := by omega
      subst this
      rw [Nat.mod_self, hd, vl]; exact ⟨rfl, rfl⟩
  rw [sum_add_distrib] at this
  have e1 : ∑ j ∈ range (n + 1), asup j * (d ((j + 1) % (n + 1)) * z j + d j * z ((j + 1) % (n + 1))) =
      ∑ j ∈ range (n + 1), asup j * (d (j + 1) * V j + d j * V (j + 1)) :=
    sum_congr rfl fun j hj => by
      have hj := mem_range.mp hj
      rw [(hw j hj).1, (hw j hj).2, vm j (by omega)]
  have e2 : ∑ j ∈ range (n + 1), (if j = 0 then adiag 0 + adiag (n + 1) else adiag j) * d j * z j =
      ∑ j ∈ range (n + 2), adiag j * (d j * V j) := by
    rw [sum_range_succ', sum_range_succ _ (n + 1), sum_range_succ', hd, vl, vm 0 (by omega)]
    simp only [Nat.succ_ne_zero, if_false, if_true]
    have : ∑ k ∈ range n, adiag (k + 1) * d (k + 1) * z (k + 1) = ∑ k ∈ range n, adiag (k + 1) * (d (k + 1) * V (k + 1)) :=
      sum_congr rfl fun k hk => by rw [vm (k + 1) (by have := mem_range.mp hk; omega)]; ring
    rw [this]; ring
  have e3 : ∑ j ∈ range (n + 1), (if j = 0 then b 0 + b (n + 1) else b j) * d j = ∑ j ∈ range (n + 2), b j * d j := by
    rw [sum_range_succ', sum_range_succ _ (n + 1), sum_range_succ', hd]
    simp only [Nat.succ_ne_zero, if_false, if_true]
    ring
  rw [e1, e2, e3] at this
  exact this

end Fit
end Npplus
