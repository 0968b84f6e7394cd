import Verif.Props.PlfitOk

/-! Helper lemmas for `splfit`: the linear system as a bilinear form. -/

set_option linter.unusedSectionVars false

namespace Npplus
open Spec Finset

variable {K : Type} [Field K] [LinearOrder K] [IsStrictOrderedRing K] {m : ℕ}

namespace Fit

/-- The contribution of the matrix element `(g, f)` (and of its mirror image) to `dᵀ A z`. -/
def pairE (d z : ℕ → K) (f g : ℕ) : K := if f = g then d f * z f else d g * z f + d f * z g

theorem pairE_self (d z : ℕ → K) (f : ℕ) : pairE d z f f = d f * z f := if_pos rfl
theorem pairE_ne (d z : ℕ → K) {f g : ℕ} (h : f ≠ g) : pairE d z f g = d g * z f + d f * z g := if_neg h

/-- The slice `cco[n1-j:n1*j:n2]` has `min j (nc+1)` elements. -/
theorem splA_slice {n nc r : ℕ} (hr : r ≤ n) (hr0 : r ≠ 0) :
    sliceLen ((nc + 1) * (n + 1)) (n + 1 - r) ((n + 1) * r) (n + 2) = min r (nc + 1) := by
  unfold sliceLen
  have e : min ((n + 1) * r) ((nc + 1) * (n + 1)) = (n + 1) * min r (nc + 1) := by
    rw [mul_comm (nc + 1), Nat.mul_min_mul_left]
  rw [e]
  have hM : min r (nc + 1) ≤ r := min_le_left _ _
  have hM1 : 1 ≤ min r (nc + 1) := by omega
  generalize min r (nc + 1) = M at hM hM1 ⊢
  obtain ⟨M, rfl⟩ : ∃ M', M = M' + 1 := ⟨M - 1, by omega⟩
  have h1 : (n + 1) * (M + 1) = (n + 1) * M + (n + 1) := by ring
  rw [h1, if_pos (by omega)]
  congr 1
  rw [show (n + 1) * M + (n + 1) - (n + 1 - r) - 1 = (n + 2) * M + (r - M - 1) by
    have : (n + 2) * M = (n + 1) * M + M := by ring
    omega]
  rw [Nat.mul_add_div (by omega), Nat.div_eq_of_lt (by omega), add_zero]

/-- The elements of the matrix (lower diagonal form) inside one block. -/
theorem splA_eq {n nc : ℕ} (hnc : nc < n) (xp rat : ℕ → ℕ → K) {r : ℕ} (hr : r ≤ n + 1) (j : ℕ) {q : ℕ} :
    splA n nc xp rat r j q = (if r ≤ n ∧ q < n + 1 - r then xp j (r + 2 * q) else 0) +
      (if n + 1 ≤ q + r ∧ q ≤ n ∧ q + r - (n + 1) ≤ nc then (q.choose (q + r - (n + 1)) : K) else 0) +
      (if r = nc + 1 ∧ n + 1 ≤ q then -rat j (q - (n + 1)) else 0) := by
  unfold splA
  simp only
  by_cases h1 : r = nc + 1 ∧ n + 1 ≤ q
  · rw [if_pos h1, if_neg (by omega), if_neg (by omega), if_pos h1, zero_add, zero_add]
  rw [if_neg h1, if_neg h1, add_zero]
  by_cases h2 : r = n + 1 ∧ q < nc + 1
  · rw [if_pos h2, if_neg (by omega), if_pos (by omega), h2.1, Nat.add_sub_cancel, Nat.choose_self, zero_add, Nat.cast_one]
  rw [if_neg h2]
  by_cases h3 : r ≤ n ∧ r ≠ 0
  · rw [splA_slice h3.1 h3.2]
    by_cases h4 : n + 1 - r ≤ q ∧ q < n + 1 - r + min r (nc + 1)
    · rw [if_pos ⟨h3.1, h3.2, h4.1, h4.2⟩, if_neg (by omega), if_pos (by omega), zero_add]
      have hf : n + 1 - r + (q - (n + 1 - r)) * (n + 2) = (q + r - (n + 1)) * (n + 1) + q := by
        obtain ⟨t, ht⟩ : ∃ t, q = n + 1 - r + t := ⟨q - (n + 1 - r), by omega⟩
        rw [show q - (n + 1 - r) = t by omega, show q + r - (n + 1) = t by omega, ht]
        ring
      have hd := flat_div (n := n + 1) (r := q + r - (n + 1)) (c := q) (by omega)
      rw [hf, hd.1, hd.2, (bicoRow_spec n (q + r - (n + 1)) (by omega)).2 q (by omega)]
    · rw [if_neg (by tauto), if_neg (show ¬ (n + 1 ≤ q + r ∧ q ≤ n ∧ q + r - (n + 1) ≤ nc) by omega), add_zero]
  · rw [if_neg (by tauto), if_neg (show ¬ (n + 1 ≤ q + r ∧ q ≤ n ∧ q + r - (n + 1) ≤ nc) by omega), add_zero]

/-- One block of `dᵀ A z`. -/
theorem splA_block {n nc : ℕ} (hnc : nc < n) (xp rat : ℕ → ℕ → K) (j o : ℕ) (d z : ℕ → K) :
    ∑ q ∈ range (n + 2 + nc), ∑ r ∈ range (n + 2), splA n nc xp rat r j q * pairE d z (o + q) (o + q + r) =
      ∑ q ∈ range (n + 1), d (o + q) * ∑ q' ∈ range (n + 1), xp j (q + q') * z (o + q') +
      ∑ k ∈ range (nc + 1), (d (o + (n + 1 + k)) * ∑ q ∈ range (n + 1), (q.choose k : K) * z (o + q) +
        z (o + (n + 1 + k)) * ∑ q ∈ range (n + 1), (q.choose k : K) * d (o + q)) -
      ∑ k ∈ range (nc + 1), rat j k * (d (o + (n + 1 + k)) * z (o + (n + 2 + nc + k)) +
        z (o + (n + 1 + k)) * d (o + (n + 2 + nc + k))) := by
  have e : ∀ q ∈ range (n + 2 + nc), ∑ r ∈ range (n + 2), splA n nc xp rat r j q * pairE d z (o + q) (o + q + r) =
      (if q < n + 1 then ∑ r ∈ range (n + 1), (if q + r < n + 1 then xp j (r + 2 * q) * pairE d z (o + q) (o + q + r) else 0) else 0) +
      (if q < n + 1 then ∑ k ∈ range (nc + 1), (q.choose k : K) * (d (o + (n + 1 + k)) * z (o + q) + z (o + (n + 1 + k)) * d (o + q)) else 0) -
      (if n + 1 ≤ q then rat j (q - (n + 1)) * (d (o + (q + (nc + 1))) * z (o + q) + z (o + (q + (nc + 1))) * d (o + q)) else 0) := by
    intro q hq
    have hq := mem_range.mp hq
    have e1 : ∀ r ∈ range (n + 2), splA n nc xp rat r j q * pairE d z (o + q) (o + q + r) =
        (if q + r < n + 1 then xp j (r + 2 * q) * pairE d z (o + q) (o + q + r) else 0) +
        (if n + 1 ≤ q + r ∧ q ≤ n ∧ q + r - (n + 1) ≤ nc then (q.choose (q + r - (n + 1)) : K) * pairE d z (o + q) (o + q + r) else 0) +
        (if r = nc + 1 then (if n + 1 ≤ q then -rat j (q - (n + 1)) else 0) * pairE d z (o + q) (o + q + r) else 0) := by
      intro r hr
      have hr := mem_range.mp hr
      rw [splA_eq hnc xp rat (by omega), add_mul, add_mul]
      congr 1
      · congr 1
        · rw [ite_mul, zero_mul]
          refine if_congr (by omega) rfl rfl
        · rw [ite_mul, zero_mul]
      · by_cases h : r = nc + 1
        · rw [if_pos h]
          congr 1
          exact if_congr (by tauto) rfl rfl
        · rw [if_neg h, if_neg (by tauto), zero_mul]
    rw [sum_congr rfl e1, sum_add_distrib, sum_add_distrib, sum_ite_eq', if_pos (mem_range.mpr (by omega)), sub_eq_add_neg]
    congr 1
    · congr 1
      · rw [sum_range_succ, if_neg (by omega), add_zero]
        by_cases h : q < n + 1
        · rw [if_pos h]
        · rw [if_neg h]
          exact sum_eq_zero fun r _ => if_neg (by omega)
      · by_cases h : q < n + 1
        · rw [if_pos h]
          rw [show n + 2 = (n + 1 - q) + (q + 1) by omega, sum_range_add, sum_eq_zero, zero_add]
          swap
          · intro r hr
            have := mem_range.mp hr
            rw [if_neg (by omega)]
          have a1 : ∀ k ∈ range (q + 1), (if n + 1 ≤ q + (n + 1 - q + k) ∧ q ≤ n ∧ q + (n + 1 - q + k) - (n + 1) ≤ nc then
              (q.choose (q + (n + 1 - q + k) - (n + 1)) : K) * pairE d z (o + q) (o + q + (n + 1 - q + k)) else 0) =
              if k < nc + 1 then (q.choose k : K) * (d (o + (n + 1 + k)) * z (o + q) + z (o + (n + 1 + k)) * d (o + q)) else 0 := by
            intro k _
            rw [show q + (n + 1 - q + k) - (n + 1) = k by omega]
            by_cases hk : k < nc + 1
            · rw [if_pos (by omega), if_pos hk, pairE_ne _ _ (by omega), show o + q + (n + 1 - q + k) = o + (n + 1 + k) by omega]
              ring
            · rw [if_neg (by omega), if_neg hk]
          rw [sum_congr rfl a1, ← sum_filter]
          have a2 : ∀ k ∈ range (nc + 1), (q.choose k : K) * (d (o + (n + 1 + k)) * z (o + q) + z (o + (n + 1 + k)) * d (o + q)) =
              if k < q + 1 then (q.choose k : K) * (d (o + (n + 1 + k)) * z (o + q) + z (o + (n + 1 + k)) * d (o + q)) else 0 := by
            intro k _
            by_cases hk : k < q + 1
            · rw [if_pos hk]
            · rw [if_neg hk, Nat.choose_eq_zero_of_lt (by omega), Nat.cast_zero, zero_mul]
          rw [sum_congr rfl a2, ← sum_filter]
          refine sum_congr ?_ fun _ _ => rfl
          ext k
          simp only [mem_filter, mem_range]
          tauto
        · rw [if_neg h]
          exact sum_eq_zero fun r _ => if_neg (by omega)
    · rw [pairE_ne _ _ (by omega)]
      by_cases h : n + 1 ≤ q
      · rw [if_pos h, if_pos h, add_assoc o q]
        ring
      · rw [if_neg h, if_neg h, zero_mul, neg_zero]
  rw [sum_congr rfl e, sum_sub_distrib, sum_add_distrib, show n + 2 + nc = (n + 1) + (nc + 1) by omega]
  rw [sum_range_add (fun q => if q < n + 1 then ∑ r ∈ range (n + 1), (if q + r < n + 1 then xp j (r + 2 * q) * pairE d z (o + q) (o + q + r) else 0) else 0),
    sum_range_add (fun q => if q < n + 1 then ∑ k ∈ range (nc + 1), (q.choose k : K) * (d (o + (n + 1 + k)) * z (o + q) + z (o + (n + 1 + k)) * d (o + q)) else 0),
    sum_range_add (fun q => if n + 1 ≤ q then rat j (q - (n + 1)) * (d (o + (q + (nc + 1))) * z (o + q) + z (o + (q + (nc + 1))) * d (o + q)) else 0)]
  have z1 : ∀ F : ℕ → K, ∑ q ∈ range (nc + 1), (if n + 1 + q < n + 1 then F (n + 1 + q) else 0) = 0 := fun F =>
    sum_eq_zero fun q _ => if_neg (by omega)
  have z2 : ∀ F : ℕ → K, ∑ q ∈ range (n + 1), (if n + 1 ≤ q then F q else 0) = 0 := fun F =>
    sum_eq_zero fun q hq => if_neg (by have := mem_range.mp hq; omega)
  rw [z1 (fun q => ∑ r ∈ range (n + 1), (if q + r < n + 1 then xp j (r + 2 * q) * pairE d z (o + q) (o + q + r) else 0)),
    z1 (fun q => ∑ k ∈ range (nc + 1), (q.choose k : K) * (d (o + (n + 1 + k)) * z (o + q) + z (o + (n + 1 + k)) * d (o + q))),
    z2, add_zero, add_zero, zero_add]
  congr 1
  · congr 1
    · have hb := band_form (n + 1) n (fun r q => xp j (r + 2 * q)) (fun q => d (o + q)) (fun q => z (o + q))
      have hl : ∀ q ∈ range (n + 1), d (o + q) * ∑ q' ∈ range (n + 1), symBand n (fun r q => xp j (r + 2 * q)) q q' * z (o + q') =
          d (o + q) * ∑ q' ∈ range (n + 1), xp j (q + q') * z (o + q') := by
        intro q hq
        have := mem_range.mp hq
        congr 1
        refine sum_congr rfl fun q' hq' => ?_
        have := mem_range.mp hq'
        unfold symBand
        beta_reduce
        by_cases h : q' ≤ q
        · rw [if_pos h, if_pos (by omega), show q - q' + 2 * q' = q + q' by omega]
        · rw [if_neg h, if_pos (by omega), show q' - q + 2 * q = q + q' by omega]
      rw [sum_congr rfl hl] at hb
      rw [hb]
      refine sum_congr rfl fun q hq => ?_
      rw [if_pos (mem_range.mp hq), sum_range_succ', add_comm, if_pos (by simpa using hq), add_zero, pairE_self, ← mul_assoc]
      congr 1
      refine sum_congr rfl fun s _ => ?_
      by_cases h : q + (s + 1) < n + 1
      · rw [if_pos h, if_pos h, pairE_ne _ _ (by omega), add_assoc o q]
      · rw [if_neg h, if_neg h]
    · rw [sum_congr rfl fun q hq => if_pos (mem_range.mp hq), sum_comm]
      refine sum_congr rfl fun k _ => ?_
      rw [mul_sum, mul_sum, ← sum_add_distrib]
      exact sum_congr rfl fun q _ => by ring
  · refine sum_congr rfl fun k _ => ?_
    rw [if_pos (by omega), show n + 1 + k - (n + 1) = k by omega, show n + 1 + k + (nc + 1) = n + 1 + (nc + 1) + k by omega]
    ring

/-- `dᵀ A z` for a symmetric band matrix, `d` and `z` vanish beyond its size. -/
theorem band_form' {N M u : ℕ} (h : N ≤ M) (ab : ℕ → ℕ → K) {d z : ℕ → K} (hd : ∀ f, N ≤ f → d f = 0) (hz : ∀ f, N ≤ f → z f = 0) :
    ∑ i ∈ range N, d i * ∑ j ∈ range N, symBand u ab i j * z j =
      ∑ f ∈ range M, ∑ r ∈ range (u + 1), ab r f * pairE d z f (f + r) := by
  obtain ⟨L, rfl⟩ := Nat.exists_eq_add_of_le h
  rw [band_form, sum_range_add, sum_eq_zero (s := range L), add_zero]
  · refine sum_congr rfl fun f _ => ?_
    rw [sum_range_succ', add_comm, add_zero, pairE_self, ← mul_assoc]
    congr 1
    refine sum_congr rfl fun s _ => ?_
    by_cases h : f + (s + 1) < N
    · rw [if_pos h, pairE_ne _ _ (by omega)]
    · rw [if_neg h, pairE_ne _ _ (by omega), hd (f + (s + 1)) (by omega), hz (f + (s + 1)) (by omega)]; ring
  · intro f _
    refine sum_eq_zero fun r _ => ?_
    unfold pairE
    rw [hd _ (by omega), hz (N + f) (by omega), hd (N + f + r) (by omega)]
    split <;> ring

/-- `dᵀ A z` for a symmetric cyclic matrix, `d` and `z` continued periodically. -/
theorem cyclic_form' (N u : ℕ) (ab : ℕ → ℕ → K) {d z : ℕ → K} (hd : ∀ f, d (f % N) = d f) (hz : ∀ f, z (f % N) = z f) :
    ∑ i ∈ range N, d i * ∑ j ∈ range N, symCyclic N u ab i j * z j =
      ∑ f ∈ range N, ∑ r ∈ range (u + 1), ab r f * pairE d z f (f + r) := by
  rw [cyclic_form]
  refine sum_congr rfl fun f _ => ?_
  rw [sum_range_succ', add_comm, add_zero, pairE_self, ← mul_assoc]
  congr 1
  refine sum_congr rfl fun s _ => ?_
  rw [hd, hz, pairE_ne _ _ (by omega)]

/-- A sum over the unknowns as a sum over blocks. -/
theorem sum_blocks (B L : ℕ) (F : ℕ → K) :
    ∑ f ∈ range (B * L), F f = ∑ j ∈ range L, ∑ q ∈ range B, F (j * B + q) := by
  induction L with
  | zero => simp
  | succ L ih => rw [Nat.mul_succ, sum_range_add, ih, sum_range_succ, mul_comm]

/-- Left hand side of a constraint: coefficients `c` of an interval, `cn` of the next one, both scaled. -/
def gap (n : ℕ) (rat c cn : ℕ → K) (k : ℕ) : K := ∑ q ∈ range (n + 1), (q.choose k : K) * c q - rat k * cn k

/-- The terms of one block in `dᵀ A z`, in terms of the coefficients `c`, `dc` and the multipliers. -/
def blockForm (n nc : ℕ) (xp rat : ℕ → K) (dc c dcn cn dl l : ℕ → K) : K :=
  ∑ q ∈ range (n + 1), dc q * ∑ q' ∈ range (n + 1), xp (q + q') * c q' +
  ∑ k ∈ range (nc + 1), (dl k * gap n rat c cn k + l k * gap n rat dc dcn k)

variable {n nc nk1 N : ℕ} {dx : ℕ → K} {ix : ℕ → ℕ} {x y w : ℕ → K} {lo hi : List K}

/-- The moments and the right hand side of the normal equations. -/
def xpOf (N : ℕ) (ix : ℕ → ℕ) (x w : ℕ → K) (j p : ℕ) : K := bincount N ix (fun t => w t * x t ^ p) j
/-- see `xpOf` -/
def byOf (N : ℕ) (ix : ℕ → ℕ) (x y w : ℕ → K) (j p : ℕ) : K := bincount N ix (fun t => w t * x t ^ p * y t) j
/-- The ratios of the widths of neighbouring intervals. -/
def ratOf (nk1 : ℕ) (dx : ℕ → K) (j k : ℕ) : K := dx j ^ k / dx ((j + 1) % nk1) ^ k

theorem splSys_n (hk : 1 ≤ nk1) (hhi : hi.length ≤ nc + 1) :
    (splSys n nc nk1 dx N ix x y w lo hi false).n = lo.length + ((n + 2 + nc) * (nk1 - 1) + (n + 1) + hi.length) := by
  obtain ⟨L, rfl⟩ : ∃ L, nk1 = L + 1 := ⟨nk1 - 1, by omega⟩
  simp only [splSys, Bool.false_eq_true, if_false, Nat.add_sub_cancel, Nat.mul_succ]
  omega

/-- The matrix of the non periodic system as a bilinear form. -/
theorem splSys_form (hnc : nc < n) (hk : 1 ≤ nk1) (hlo : lo.length ≤ nc + 1) (hhi : hi.length ≤ nc + 1) {d z : ℕ → K}
    (hd : ∀ f, (splSys n nc nk1 dx N ix x y w lo hi false).n ≤ f → d f = 0)
    (hz : ∀ f, (splSys n nc nk1 dx N ix x y w lo hi false).n ≤ f → z f = 0) :
    ∑ i ∈ range (splSys n nc nk1 dx N ix x y w lo hi false).n, d i * ∑ j ∈ range (splSys n nc nk1 dx N ix x y w lo hi false).n,
        symBand (n + 1) (splSys n nc nk1 dx N ix x y w lo hi false).a i j * z j =
      (∑ j ∈ range nk1, blockForm n nc (xpOf N ix x w j) (ratOf nk1 dx j)
        (fun q => d (lo.length + (j * (n + 2 + nc) + q))) (fun q => z (lo.length + (j * (n + 2 + nc) + q)))
        (fun q => d (lo.length + ((j + 1) * (n + 2 + nc) + q))) (fun q => z (lo.length + ((j + 1) * (n + 2 + nc) + q)))
        (fun k => d (lo.length + (j * (n + 2 + nc) + (n + 1 + k)))) (fun k => z (lo.length + (j * (n + 2 + nc) + (n + 1 + k))))) -
      ∑ f ∈ range lo.length, (d f * z (lo.length + f) + z f * d (lo.length + f)) := by
  have hN : (splSys n nc nk1 dx N ix x y w lo hi false).n ≤ lo.length + (n + 2 + nc) * nk1 := by
    simp only [splSys, Bool.false_eq_true, if_false]; omega
  rw [band_form' hN _ hd hz, sum_range_add, sum_blocks, add_comm, sub_eq_add_neg, ← sum_neg_distrib]
  congr 1
  · refine sum_congr rfl fun j _ => ?_
    have e : ∀ q ∈ range (n + 2 + nc), ∑ r ∈ range (n + 1 + 1), (splSys n nc nk1 dx N ix x y w lo hi false).a r
        (lo.length + (j * (n + 2 + nc) + q)) * pairE d z (lo.length + (j * (n + 2 + nc) + q)) (lo.length + (j * (n + 2 + nc) + q) + r) =
        ∑ r ∈ range (n + 2), splA n nc (xpOf N ix x w) (ratOf nk1 dx) r j q *
          pairE d z (lo.length + j * (n + 2 + nc) + q) (lo.length + j * (n + 2 + nc) + q + r) := by
      intro q hq
      refine sum_congr rfl fun r _ => ?_
      simp only [splSys, Bool.false_eq_true, if_false]
      rw [if_neg (by omega), Nat.add_sub_cancel_left, (flat_div (mem_range.mp hq)).1, (flat_div (mem_range.mp hq)).2, ← add_assoc]
      rfl
    rw [sum_congr rfl e, splA_block hnc]
    unfold blockForm gap
    simp only [Nat.succ_mul]
    rw [add_sub_assoc, ← sum_sub_distrib]
    simp only [add_assoc]
    congr 1
    refine sum_congr rfl fun k _ => ?_
    ring
  · refine sum_congr rfl fun f hf => ?_
    have hf := mem_range.mp hf
    simp only [splSys, Bool.false_eq_true, if_false, if_pos hf, ite_mul, zero_mul]
    rw [sum_ite_eq', if_pos (mem_range.mpr (by omega)), pairE_ne _ _ (by omega), add_comm f]
    ring

/-- The matrix of the periodic system as a bilinear form. -/
theorem splSys_per_form (hnc : nc < n) {d z : ℕ → K}
    (hd : ∀ f, d (f % ((n + 2 + nc) * nk1)) = d f) (hz : ∀ f, z (f % ((n + 2 + nc) * nk1)) = z f) :
    ∑ i ∈ range ((n + 2 + nc) * nk1), d i * ∑ j ∈ range ((n + 2 + nc) * nk1),
        symCyclic ((n + 2 + nc) * nk1) (n + 1) (splSys n nc nk1 dx N ix x y w lo hi true).a i j * z j =
      ∑ j ∈ range nk1, blockForm n nc (xpOf N ix x w j) (ratOf nk1 dx j)
        (fun q => d (j * (n + 2 + nc) + q)) (fun q => z (j * (n + 2 + nc) + q))
        (fun q => d ((j + 1) * (n + 2 + nc) + q)) (fun q => z ((j + 1) * (n + 2 + nc) + q))
        (fun k => d (j * (n + 2 + nc) + (n + 1 + k))) (fun k => z (j * (n + 2 + nc) + (n + 1 + k))) := by
  rw [cyclic_form' _ _ _ hd hz, sum_blocks]
  refine sum_congr rfl fun j _ => ?_
  have e : ∀ q ∈ range (n + 2 + nc), ∑ r ∈ range (n + 1 + 1), (splSys n nc nk1 dx N ix x y w lo hi true).a r
      (j * (n + 2 + nc) + q) * pairE d z (j * (n + 2 + nc) + q) (j * (n + 2 + nc) + q + r) =
      ∑ r ∈ range (n + 2), splA n nc (xpOf N ix x w) (ratOf nk1 dx) r j q *
        pairE d z (j * (n + 2 + nc) + q) (j * (n + 2 + nc) + q + r) := by
    intro q hq
    refine sum_congr rfl fun r _ => ?_
    simp only [splSys, if_true]
    rw [(flat_div (mem_range.mp hq)).1, (flat_div (mem_range.mp hq)).2]
    rfl
  rw [sum_congr rfl e, splA_block hnc]
  unfold blockForm gap
  simp only [Nat.succ_mul]
  rw [add_sub_assoc, ← sum_sub_distrib]
  simp only [add_assoc]
  congr 1
  refine sum_congr rfl fun k _ => ?_
  ring

/-- The right hand side of the non periodic system. -/
theorem splSys_rhs (hk : 1 ≤ nk1) (hhi : hi.length ≤ nc + 1) (d : ℕ → K) :
    ∑ f ∈ range (splSys n nc nk1 dx N ix x y w lo hi false).n, d f * (splSys n nc nk1 dx N ix x y w lo hi false).b f =
      (∑ j ∈ range nk1, ∑ q ∈ range (n + 1), d (lo.length + (j * (n + 2 + nc) + q)) * byOf N ix x y w j q) +
      (∑ k ∈ range hi.length, d (lo.length + ((nk1 - 1) * (n + 2 + nc) + (n + 1 + k))) * (hi.getD k 0 * dx (nk1 - 1) ^ k)) -
      ∑ f ∈ range lo.length, d f * (lo.getD f 0 * dx 0 ^ f) := by
  rw [splSys_n hk hhi]
  obtain ⟨L, rfl⟩ : ∃ L, nk1 = L + 1 := ⟨nk1 - 1, by omega⟩
  rw [Nat.add_sub_cancel, sum_range_add, add_comm, sub_eq_add_neg, ← sum_neg_distrib]
  have hlen : (n + 2 + nc) * (L + 1) - (nc + 1 - hi.length) - hi.length = (n + 2 + nc) * L + (n + 1) := by
    rw [Nat.mul_succ]; omega
  congr 1
  · rw [sum_range_add, sum_range_add, sum_blocks, sum_range_succ _ L]
    congr 1
    · congr 1
      · refine sum_congr rfl fun j hj => ?_
        have hj := mem_range.mp hj
        rw [show n + 2 + nc = (n + 1) + (nc + 1) by omega, sum_range_add, sum_eq_zero (s := range (nc + 1)), add_zero]
        · refine sum_congr rfl fun q hq => ?_
          have hq := mem_range.mp hq
          simp only [splSys, Bool.false_eq_true, if_false, hlen, Nat.add_sub_cancel_left]
          have : j * (n + 2 + nc) + (n + 2 + nc) ≤ (n + 2 + nc) * L := by
            rw [← Nat.succ_mul, mul_comm]; exact Nat.mul_le_mul_left _ hj
          rw [show (n + 1) + (nc + 1) = n + 2 + nc by omega, if_neg (by omega), if_neg (by omega),
            (flat_div (show q < n + 2 + nc by omega)).1, (flat_div (show q < n + 2 + nc by omega)).2, if_pos hq]
          rfl
        · intro q hq
          have hq := mem_range.mp hq
          simp only [splSys, Bool.false_eq_true, if_false, hlen, Nat.add_sub_cancel_left]
          have : j * (n + 2 + nc) + (n + 2 + nc) ≤ (n + 2 + nc) * L := by
            rw [← Nat.succ_mul, mul_comm]; exact Nat.mul_le_mul_left _ hj
          rw [show (n + 1) + (nc + 1) = n + 2 + nc by omega, if_neg (by omega), if_neg (by omega),
            (flat_div (show n + 1 + q < n + 2 + nc by omega)).2, if_neg (by omega), mul_zero]
      · refine sum_congr rfl fun q hq => ?_
        have hq := mem_range.mp hq
        simp only [splSys, Bool.false_eq_true, if_false, hlen, Nat.add_sub_cancel_left]
        rw [if_neg (by omega), if_neg (by omega), mul_comm (n + 2 + nc) L,
          (flat_div (show q < n + 2 + nc by omega)).1, (flat_div (show q < n + 2 + nc by omega)).2, if_pos hq]
        rfl
    · refine sum_congr rfl fun k hk => ?_
      simp only [splSys, Bool.false_eq_true, if_false, hlen, Nat.add_sub_cancel_left]
      rw [if_neg (by omega), if_pos (by omega), mul_comm (n + 2 + nc) L, Nat.add_sub_cancel, add_assoc (L * _)]
  · refine sum_congr rfl fun f hf => ?_
    simp only [splSys, Bool.false_eq_true, if_false, if_pos (mem_range.mp hf)]
    ring

/-- The right hand side of the periodic system. -/
theorem splSys_per_rhs (d : ℕ → K) :
    ∑ f ∈ range ((n + 2 + nc) * nk1), d f * (splSys n nc nk1 dx N ix x y w lo hi true).b f =
      ∑ j ∈ range nk1, ∑ q ∈ range (n + 1), d (j * (n + 2 + nc) + q) * byOf N ix x y w j q := by
  rw [sum_blocks]
  refine sum_congr rfl fun j hj => ?_
  rw [show n + 2 + nc = (n + 1) + (nc + 1) by omega, sum_range_add, sum_eq_zero (s := range (nc + 1)), add_zero]
  · refine sum_congr rfl fun q hq => ?_
    have hq := mem_range.mp hq
    simp only [splSys, if_true]
    rw [show (n + 1) + (nc + 1) = n + 2 + nc by omega, 
      (flat_div (show q < n + 2 + nc by omega)).1, (flat_div (show q < n + 2 + nc by omega)).2, if_pos hq]
    rfl
  · intro q hq
    have hq := mem_range.mp hq
    simp only [splSys, if_true]
    rw [show (n + 1) + (nc + 1) = n + 2 + nc by omega, 
      (flat_div (show n + 1 + q < n + 2 + nc by omega)).2, if_neg (by omega), mul_zero]

end Fit
end Npplus
