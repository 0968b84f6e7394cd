import Verif.Lemmas.Splfit

/-! Helper lemmas for `splfit`: what a solution of the linear system satisfies. -/

set_option linter.unusedSectionVars false

namespace Npplus
open Spec Finset

variable {K : Type} [Field K] [LinearOrder K] [IsStrictOrderedRing K] {m : ℕ}

namespace Fit

variable {n nc nk1 N : ℕ} {dx : ℕ → K} {ix : ℕ → ℕ} {x y w : ℕ → K} {lo hi : List K}

/-- A test vector made of boundary multipliers, coefficients and multipliers. -/
def pack (n nc nlo tot : ℕ) (dmu : ℕ → K) (dc dl : ℕ → ℕ → K) (f : ℕ) : K :=
  if f < tot then
    if f < nlo then dmu f
    else if (f - nlo) % (n + 2 + nc) < n + 1 then dc ((f - nlo) / (n + 2 + nc)) ((f - nlo) % (n + 2 + nc))
    else dl ((f - nlo) / (n + 2 + nc)) ((f - nlo) % (n + 2 + nc) - (n + 1))
  else 0

theorem pack_c {nlo tot : ℕ} (dmu : ℕ → K) (dc dl : ℕ → ℕ → K) (j : ℕ) {q : ℕ} (hq : q < n + 1) :
    pack n nc nlo tot dmu dc dl (nlo + (j * (n + 2 + nc) + q)) = if nlo + (j * (n + 2 + nc) + q) < tot then dc j q else 0 := by
  unfold pack
  refine if_congr Iff.rfl ?_ rfl
  rw [if_neg (by omega), Nat.add_sub_cancel_left, (flat_div (show q < n + 2 + nc by omega)).1,
    (flat_div (show q < n + 2 + nc by omega)).2, if_pos hq]

theorem pack_l {nlo tot : ℕ} (dmu : ℕ → K) (dc dl : ℕ → ℕ → K) (j : ℕ) {k : ℕ} (hk : k < nc + 1) :
    pack n nc nlo tot dmu dc dl (nlo + (j * (n + 2 + nc) + (n + 1 + k))) =
      if nlo + (j * (n + 2 + nc) + (n + 1 + k)) < tot then dl j k else 0 := by
  unfold pack
  refine if_congr Iff.rfl ?_ rfl
  rw [if_neg (by omega), Nat.add_sub_cancel_left, (flat_div (show n + 1 + k < n + 2 + nc by omega)).1,
    (flat_div (show n + 1 + k < n + 2 + nc by omega)).2, if_neg (by omega), Nat.add_sub_cancel_left]

/-- Position of the coefficients and multipliers inside the non periodic system. -/
theorem pos_c {nlo nhi j q : ℕ} (hk : 1 ≤ nk1) (hnhi : nhi ≤ nc + 1) (hq : q < n + 1) :
    nlo + (j * (n + 2 + nc) + q) < nlo + ((n + 2 + nc) * (nk1 - 1) + (n + 1) + nhi) ↔ j < nk1 := by
  obtain ⟨L, rfl⟩ : ∃ L, nk1 = L + 1 := ⟨nk1 - 1, by omega⟩
  rw [Nat.add_sub_cancel, mul_comm (n + 2 + nc)]
  constructor
  · intro h
    by_contra hj
    have : (L + 1) * (n + 2 + nc) ≤ j * (n + 2 + nc) := Nat.mul_le_mul_right _ (by omega)
    rw [Nat.succ_mul] at this
    omega
  · intro h
    have : j * (n + 2 + nc) ≤ L * (n + 2 + nc) := Nat.mul_le_mul_right _ (by omega)
    omega

theorem pos_l {nlo nhi j k : ℕ} (hk : 1 ≤ nk1) (hnhi : nhi ≤ nc + 1) (hkc : k < nc + 1) (hj : j < nk1) :
    nlo + (j * (n + 2 + nc) + (n + 1 + k)) < nlo + ((n + 2 + nc) * (nk1 - 1) + (n + 1) + nhi) ↔ (j + 1 < nk1 ∨ k < nhi) := by
  obtain ⟨L, rfl⟩ : ∃ L, nk1 = L + 1 := ⟨nk1 - 1, by omega⟩
  rw [Nat.add_sub_cancel, mul_comm (n + 2 + nc)]
  by_cases h : j = L
  · subst h; omega
  · have : (j + 1) * (n + 2 + nc) ≤ L * (n + 2 + nc) := Nat.mul_le_mul_right _ (by omega)
    rw [Nat.succ_mul] at this
    constructor
    · intro; left; omega
    · intro; omega

/-- Weak form of the non periodic system. -/
theorem splSol (hnc : nc < n) (hk : 1 ≤ nk1) (hlo : lo.length ≤ nc + 1) (hhi : hi.length ≤ nc + 1)
    {z : ℕ → K} (hsol : Solves (splSys n nc nk1 dx N ix x y w lo hi false).n
      (symBand (n + 1) (splSys n nc nk1 dx N ix x y w lo hi false).a) z (splSys n nc nk1 dx N ix x y w lo hi false).b)
    {c l : ℕ → ℕ → K} (hc : ∀ j q, c j q = z (lo.length + (j * (n + 2 + nc) + q)))
    (hl : ∀ j k, l j k = if j + 1 < nk1 ∨ k < hi.length then z (lo.length + (j * (n + 2 + nc) + (n + 1 + k))) else 0)
    (dmu : ℕ → K) (dc dl : ℕ → ℕ → K) (hdl : ∀ j k, ¬ (j + 1 < nk1 ∨ k < hi.length) → dl j k = 0) :
    (∑ j ∈ range nk1, blockForm n nc (xpOf N ix x w j) (ratOf nk1 dx j) (dc j) (c j)
      (fun k => if j + 1 < nk1 then dc (j + 1) k else 0) (fun k => if j + 1 < nk1 then c (j + 1) k else 0) (dl j) (l j)) -
      ∑ f ∈ range lo.length, (dmu f * c 0 f + z f * dc 0 f) =
    (∑ j ∈ range nk1, ∑ q ∈ range (n + 1), dc j q * byOf N ix x y w j q) +
      (∑ k ∈ range hi.length, dl (nk1 - 1) k * (hi.getD k 0 * dx (nk1 - 1) ^ k)) -
      ∑ f ∈ range lo.length, dmu f * (lo.getD f 0 * dx 0 ^ f) := by
  simp only [smul_eq_mul, Solves] at hsol
  have hN := splSys_n (n := n) (dx := dx) (N := N) (ix := ix) (x := x) (y := y) (w := w) (lo := lo) hk hhi
  have hform := splSys_form (dx := dx) (N := N) (ix := ix) (x := x) (y := y) (w := w) hnc hk hlo hhi
    (d := pack n nc lo.length (splSys n nc nk1 dx N ix x y w lo hi false).n dmu dc dl)
    (z := fun f => if f < (splSys n nc nk1 dx N ix x y w lo hi false).n then z f else 0)
    (fun f hf => if_neg (by omega)) (fun f hf => if_neg (by omega))
  have hrhs := splSys_rhs (n := n) (dx := dx) (N := N) (ix := ix) (x := x) (y := y) (w := w) (lo := lo) hk hhi
    (pack n nc lo.length (splSys n nc nk1 dx N ix x y w lo hi false).n dmu dc dl)
  have heq : ∀ i ∈ range (splSys n nc nk1 dx N ix x y w lo hi false).n,
      pack n nc lo.length (splSys n nc nk1 dx N ix x y w lo hi false).n dmu dc dl i *
        (∑ j ∈ range (splSys n nc nk1 dx N ix x y w lo hi false).n,
        symBand (n + 1) (splSys n nc nk1 dx N ix x y w lo hi false).a i j *
          (if j < (splSys n nc nk1 dx N ix x y w lo hi false).n then z j else 0)) =
      pack n nc lo.length (splSys n nc nk1 dx N ix x y w lo hi false).n dmu dc dl i *
        (splSys n nc nk1 dx N ix x y w lo hi false).b i := by
    intro i hi'
    rw [← hsol i (mem_range.mp hi')]
    congr 1
    exact sum_congr rfl fun j hj => by rw [if_pos (mem_range.mp hj)]
  rw [sum_congr rfl heq, hrhs] at hform
  rw [hN] at hform
  clear hsol hrhs heq
  -- the pieces of the packed vectors
  have pc : ∀ j q, q < n + 1 → pack n nc lo.length (lo.length + ((n + 2 + nc) * (nk1 - 1) + (n + 1) + hi.length)) dmu dc dl
      (lo.length + (j * (n + 2 + nc) + q)) = if j < nk1 then dc j q else 0 := fun j q hq => by
    rw [pack_c _ _ _ _ hq]; exact if_congr (pos_c hk hhi hq) rfl rfl
  have pl : ∀ j < nk1, ∀ k < nc + 1, pack n nc lo.length (lo.length + ((n + 2 + nc) * (nk1 - 1) + (n + 1) + hi.length)) dmu dc dl
      (lo.length + (j * (n + 2 + nc) + (n + 1 + k))) = dl j k := fun j hj k hk' => by
    rw [pack_l _ _ _ _ hk', if_congr (pos_l hk hhi hk' hj) rfl rfl]
    by_cases h : j + 1 < nk1 ∨ k < hi.length
    · rw [if_pos h]
    · rw [if_neg h, hdl j k h]
  have zc : ∀ j q, q < n + 1 → (if lo.length + (j * (n + 2 + nc) + q) < lo.length + ((n + 2 + nc) * (nk1 - 1) + (n + 1) + hi.length) then
      z (lo.length + (j * (n + 2 + nc) + q)) else 0) = if j < nk1 then c j q else 0 := fun j q hq => by
    rw [hc]; exact if_congr (pos_c hk hhi hq) rfl rfl
  have zl : ∀ j < nk1, ∀ k < nc + 1, (if lo.length + (j * (n + 2 + nc) + (n + 1 + k)) < lo.length + ((n + 2 + nc) * (nk1 - 1) + (n + 1) + hi.length) then
      z (lo.length + (j * (n + 2 + nc) + (n + 1 + k))) else 0) = l j k := fun j hj k hk' => by
    rw [hl]; exact if_congr (pos_l hk hhi hk' hj) rfl rfl
  have pm : ∀ f < lo.length, pack n nc lo.length (lo.length + ((n + 2 + nc) * (nk1 - 1) + (n + 1) + hi.length)) dmu dc dl f = dmu f := fun f hf => by
    unfold pack; rw [if_pos (by omega), if_pos hf]
  have key : ∀ A A' B B' C C' D D' E E' : K, A' - B' = C' + D' - E' → A = A' → B = B' → C = C' → D = D' → E = E' → A - B = C + D - E := by
    rintro A _ B _ C _ D _ E _ h rfl rfl rfl rfl rfl; exact h
  refine key _ _ _ _ _ _ _ _ _ _ hform.symm ?_ ?_ ?_ ?_ ?_
  · refine sum_congr rfl fun j hj => ?_
    have hj := mem_range.mp hj
    unfold blockForm gap
    refine congrArg₂ HAdd.hAdd (sum_congr rfl fun q hq => ?_) (sum_congr rfl fun k hk' => ?_)
    · beta_reduce
      rw [pc j q (mem_range.mp hq), if_pos hj]
      refine congrArg _ (sum_congr rfl fun q' hq' => ?_)
      rw [zc j q' (mem_range.mp hq'), if_pos hj]
    · have hk' := mem_range.mp hk'
      beta_reduce
      rw [pl j hj k hk']
      rw [zl j hj k hk', pc (j + 1) k (by omega), zc (j + 1) k (by omega)]
      congr 1
      · congr 2
        refine sum_congr rfl fun q hq => ?_
        rw [zc j q (mem_range.mp hq), if_pos hj]
      · congr 2
        refine sum_congr rfl fun q hq => ?_
        rw [pc j q (mem_range.mp hq), if_pos hj]
  · refine sum_congr rfl fun f hf => ?_
    have hf := mem_range.mp hf
    have a1 := pc 0 f (by omega)
    have a2 := zc 0 f (by omega)
    rw [zero_mul, zero_add, if_pos (show 0 < nk1 by omega)] at a1 a2
    beta_reduce
    rw [pm f hf, a1, a2, if_pos (by omega)]
  · refine sum_congr rfl fun j hj => sum_congr rfl fun q hq => ?_
    rw [pc j q (mem_range.mp hq), if_pos (mem_range.mp hj)]
  · refine sum_congr rfl fun k hk' => ?_
    have := mem_range.mp hk'
    rw [pl (nk1 - 1) (by omega) k (by omega)]
  · refine sum_congr rfl fun f hf => ?_
    rw [pm f (mem_range.mp hf)]

/-- The constraints and the stationarity, non periodic. -/
theorem splSol_spec (hnc : nc < n) (hk : 1 ≤ nk1) (hlo : lo.length ≤ nc + 1) (hhi : hi.length ≤ nc + 1)
    {z : ℕ → K} (h : Solves (splSys n nc nk1 dx N ix x y w lo hi false).n
      (symBand (n + 1) (splSys n nc nk1 dx N ix x y w lo hi false).a) z (splSys n nc nk1 dx N ix x y w lo hi false).b)
    {c l : ℕ → ℕ → K} (hc : ∀ j q, c j q = z (lo.length + (j * (n + 2 + nc) + q)))
    (hl : ∀ j k, l j k = z (lo.length + (j * (n + 2 + nc) + (n + 1 + k)))) :
    (∀ j k, j + 1 < nk1 → k < nc + 1 → ∑ q ∈ range (n + 1), (q.choose k : K) * c j q = ratOf nk1 dx j k * c (j + 1) k) ∧
    (∀ k < hi.length, ∑ q ∈ range (n + 1), (q.choose k : K) * c (nk1 - 1) q = hi.getD k 0 * dx (nk1 - 1) ^ k) ∧
    (∀ k < lo.length, c 0 k = lo.getD k 0 * dx 0 ^ k) ∧
    ∀ dc : ℕ → ℕ → K, ∑ j ∈ range nk1, ∑ q ∈ range (n + 1), dc j q *
        (∑ q' ∈ range (n + 1), xpOf N ix x w j (q + q') * c j q' - byOf N ix x y w j q) +
      ∑ j ∈ range (nk1 - 1), ∑ k ∈ range (nc + 1), l j k * (∑ q ∈ range (n + 1), (q.choose k : K) * dc j q - ratOf nk1 dx j k * dc (j + 1) k) +
      ∑ k ∈ range hi.length, l (nk1 - 1) k * ∑ q ∈ range (n + 1), (q.choose k : K) * dc (nk1 - 1) q -
      ∑ k ∈ range lo.length, z k * dc 0 k = 0 := by
  have W := splSol hnc hk hlo hhi h hc (fun _ _ => rfl)
  have W1 : ∀ j0 k0, k0 < nc + 1 → j0 < nk1 → (j0 + 1 < nk1 ∨ k0 < hi.length) →
      gap n (ratOf nk1 dx j0) (c j0) (fun k => if j0 + 1 < nk1 then c (j0 + 1) k else 0) k0 =
        if j0 = nk1 - 1 then hi.getD k0 0 * dx (nk1 - 1) ^ k0 else 0 := by
    intro j0 k0 hk0 hj0 hor
    have := W 0 0 (fun j k => if j = j0 ∧ k = k0 then 1 else 0) (fun j k hjk => if_neg (by rintro ⟨rfl, rfl⟩; exact hjk hor))
    simp only [Pi.zero_apply, zero_mul, sum_const_zero, zero_add, ite_self, mul_zero, add_zero, sub_zero, blockForm, gap, ite_mul, one_mul, sub_self] at this
    rw [sum_eq_single j0] at this
    · rw [sum_eq_single k0] at this
      · rw [if_pos ⟨rfl, rfl⟩] at this
        unfold gap
        rw [this]
        by_cases hj : j0 = nk1 - 1
        · rw [if_pos hj]
          rw [sum_eq_single k0]
          · rw [if_pos ⟨hj.symm, rfl⟩]
          · intro k _ hkk; rw [if_neg (by tauto)]
          · intro hh; rw [if_neg]; rintro -; exact hh (mem_range.mpr (by omega))
        · rw [if_neg hj]
          exact sum_eq_zero fun k _ => if_neg (by rintro ⟨h1, -⟩; exact hj h1.symm)
      · intro k _ hkk; rw [if_neg (by tauto)]
      · intro hh; exact absurd (mem_range.mpr hk0) hh
    · intro j _ hjj; exact sum_eq_zero fun k _ => if_neg (by tauto)
    · intro hh; exact absurd (mem_range.mpr hj0) hh
  refine ⟨?_, ?_, ?_, ?_⟩
  · intro j k hj hk'
    have := W1 j k hk' (by omega) (Or.inl hj)
    rw [if_neg (by omega)] at this
    unfold gap at this
    beta_reduce at this
    rw [if_pos hj] at this
    exact sub_eq_zero.mp this
  · intro k hk'
    have := W1 (nk1 - 1) k (by omega) (by omega) (Or.inr hk')
    rw [if_pos rfl] at this
    unfold gap at this
    beta_reduce at this
    rwa [if_neg (by omega), mul_zero, sub_zero] at this
  · intro k hk'
    have := W (fun f => if f = k then 1 else 0) 0 0 (fun _ _ _ => rfl)
    simp only [Pi.zero_apply, zero_mul, sum_const_zero, zero_add, ite_self, mul_zero, add_zero, sub_zero, blockForm, gap, ite_mul, one_mul, sub_self, zero_sub, neg_inj] at this
    rw [sum_ite_eq' (range lo.length) k, sum_ite_eq' (range lo.length) k, if_pos (mem_range.mpr hk'), if_pos (mem_range.mpr hk')] at this
    exact this
  · intro dc
    have := W 0 dc 0 (fun _ _ _ => rfl)
    simp only [Pi.zero_apply, zero_mul, sum_const_zero, zero_add, add_zero, sub_zero, blockForm] at this
    rw [← sub_eq_zero] at this
    rw [← this]
    obtain ⟨L, rfl⟩ : ∃ L, nk1 = L + 1 := ⟨nk1 - 1, by omega⟩
    simp only [Nat.add_sub_cancel, sum_add_distrib, mul_sub, sum_sub_distrib]
    have e : ∑ j ∈ range (L + 1), ∑ k ∈ range (nc + 1), (if j + 1 < L + 1 ∨ k < hi.length then z (lo.length + (j * (n + 2 + nc) + (n + 1 + k))) else 0) *
        gap n (ratOf (L + 1) dx j) (dc j) (fun k => if j + 1 < L + 1 then dc (j + 1) k else 0) k =
        ∑ j ∈ range L, ∑ k ∈ range (nc + 1), (l j k * ∑ q ∈ range (n + 1), (q.choose k : K) * dc j q - l j k * (ratOf (L + 1) dx j k * dc (j + 1) k)) +
        ∑ k ∈ range hi.length, l L k * ∑ q ∈ range (n + 1), (q.choose k : K) * dc L q := by
      rw [sum_range_succ]
      congr 1
      · refine sum_congr rfl fun j hj => sum_congr rfl fun k _ => ?_
        have hj := mem_range.mp hj
        unfold gap
        beta_reduce
        rw [if_pos (Or.inl (by omega)), if_pos (by omega), ← hl, mul_sub]
      · rw [show nc + 1 = hi.length + (nc + 1 - hi.length) by omega, sum_range_add, sum_eq_zero (s := range (nc + 1 - hi.length)), add_zero]
        · refine sum_congr rfl fun k hk' => ?_
          unfold gap
          beta_reduce
          rw [if_pos (Or.inr (mem_range.mp hk')), if_neg (by omega), mul_zero, sub_zero, hl]
        · intro k _
          rw [if_neg (by omega), zero_mul]
    rw [e]
    simp only [sum_sub_distrib]
    ring

theorem block_mod {B j q : ℕ} (hj : j < nk1) (hq : q < B) : ((j + 1) * B + q) % (B * nk1) = (j + 1) % nk1 * B + q := by
  by_cases h : j + 1 < nk1
  · rw [Nat.mod_eq_of_lt h, Nat.mod_eq_of_lt]
    have : (j + 1 + 1) * B ≤ nk1 * B := Nat.mul_le_mul_right _ (by omega)
    rw [Nat.succ_mul, mul_comm nk1] at this
    omega
  · have hj : j + 1 = nk1 := by omega
    have : B ≤ B * nk1 := Nat.le_mul_of_pos_right _ (by omega)
    rw [hj, Nat.mod_self, zero_mul, zero_add, mul_comm nk1, Nat.add_mod_left, Nat.mod_eq_of_lt (by omega)]

theorem block_mod' {B j q : ℕ} (hj : j < nk1) (hq : q < B) : (j * B + q) % (B * nk1) = j * B + q := by
  have : (j + 1) * B ≤ nk1 * B := Nat.mul_le_mul_right _ (by omega)
  rw [Nat.succ_mul, mul_comm nk1] at this
  exact Nat.mod_eq_of_lt (by omega)

/-- Weak form of the periodic system. -/
theorem splSol_per (hnc : nc < n)
    {z : ℕ → K} (hsol : Solves ((n + 2 + nc) * nk1) (symCyclic ((n + 2 + nc) * nk1) (n + 1)
      (splSys n nc nk1 dx N ix x y w lo hi true).a) z (splSys n nc nk1 dx N ix x y w lo hi true).b)
    {c l : ℕ → ℕ → K} (hc : ∀ j q, c j q = z (j * (n + 2 + nc) + q))
    (hl : ∀ j k, l j k = z (j * (n + 2 + nc) + (n + 1 + k)))
    (dc dl : ℕ → ℕ → K) :
    (∑ j ∈ range nk1, blockForm n nc (xpOf N ix x w j) (ratOf nk1 dx j) (dc j) (c j) (dc ((j + 1) % nk1)) (c ((j + 1) % nk1)) (dl j) (l j)) =
    ∑ j ∈ range nk1, ∑ q ∈ range (n + 1), dc j q * byOf N ix x y w j q := by
  simp only [smul_eq_mul, Solves] at hsol
  rcases Nat.eq_zero_or_pos nk1 with h0 | h0
  · subst h0; simp
  have hform := splSys_per_form (dx := dx) (N := N) (ix := ix) (x := x) (y := y) (w := w) (lo := lo) (hi := hi) (nk1 := nk1) hnc
    (d := fun f => pack n nc 0 ((n + 2 + nc) * nk1) 0 dc dl (f % ((n + 2 + nc) * nk1)))
    (z := fun f => z (f % ((n + 2 + nc) * nk1)))
    (fun f => by beta_reduce; rw [Nat.mod_mod]) (fun f => by beta_reduce; rw [Nat.mod_mod])
  have hrhs := splSys_per_rhs (n := n) (nc := nc) (nk1 := nk1) (dx := dx) (N := N) (ix := ix) (x := x) (y := y) (w := w) (lo := lo) (hi := hi)
    (fun f => pack n nc 0 ((n + 2 + nc) * nk1) 0 dc dl (f % ((n + 2 + nc) * nk1)))
  have heq : ∀ i ∈ range ((n + 2 + nc) * nk1),
      pack n nc 0 ((n + 2 + nc) * nk1) 0 dc dl (i % ((n + 2 + nc) * nk1)) *
        (∑ j ∈ range ((n + 2 + nc) * nk1),
        symCyclic ((n + 2 + nc) * nk1) (n + 1) (splSys n nc nk1 dx N ix x y w lo hi true).a i j *
          z (j % ((n + 2 + nc) * nk1))) =
      pack n nc 0 ((n + 2 + nc) * nk1) 0 dc dl (i % ((n + 2 + nc) * nk1)) *
        (splSys n nc nk1 dx N ix x y w lo hi true).b i := by
    intro i hi'
    rw [← hsol i (mem_range.mp hi')]
    congr 1
    exact sum_congr rfl fun j hj => by rw [Nat.mod_eq_of_lt (mem_range.mp hj)]
  rw [sum_congr rfl heq, hrhs] at hform
  clear hsol hrhs heq
  have hlt : ∀ j q, j < nk1 → q < n + 2 + nc → j * (n + 2 + nc) + q < (n + 2 + nc) * nk1 := by
    intro j q hj hq
    have : (j + 1) * (n + 2 + nc) ≤ nk1 * (n + 2 + nc) := Nat.mul_le_mul_right _ (by omega)
    rw [Nat.succ_mul, mul_comm nk1] at this
    omega
  have pc : ∀ j q, j < nk1 → q < n + 1 → pack n nc 0 ((n + 2 + nc) * nk1) 0 dc dl (j * (n + 2 + nc) + q) = dc j q := fun j q hj hq => by
    have := pack_c (n := n) (nc := nc) (nlo := 0) (tot := (n + 2 + nc) * nk1) 0 dc dl j hq
    rw [zero_add, if_pos (hlt j q hj (by omega))] at this
    exact this
  have pl : ∀ j k, j < nk1 → k < nc + 1 → pack n nc 0 ((n + 2 + nc) * nk1) 0 dc dl (j * (n + 2 + nc) + (n + 1 + k)) = dl j k := fun j k hj hk' => by
    have := pack_l (n := n) (nc := nc) (nlo := 0) (tot := (n + 2 + nc) * nk1) 0 dc dl j hk'
    rw [zero_add, if_pos (hlt j (n + 1 + k) hj (by omega))] at this
    exact this
  refine Eq.trans ?_ (hform.symm.trans ?_)
  · refine sum_congr rfl fun j hj => ?_
    have hj := mem_range.mp hj
    have hj1 : (j + 1) % nk1 < nk1 := Nat.mod_lt _ h0
    unfold blockForm gap
    refine congrArg₂ HAdd.hAdd (sum_congr rfl fun q hq => ?_) (sum_congr rfl fun k hk' => ?_)
    · have hq := mem_range.mp hq
      beta_reduce
      rw [block_mod' hj (by omega), pc j q hj hq]
      refine congrArg _ (sum_congr rfl fun q' hq' => ?_)
      have hq' := mem_range.mp hq'
      rw [block_mod' hj (by omega), hc]
    · have hk' := mem_range.mp hk'
      beta_reduce
      rw [block_mod' hj (show n + 1 + k < n + 2 + nc by omega), pl j k hj hk', block_mod hj (show k < n + 2 + nc by omega),
        pc ((j + 1) % nk1) k hj1 (by omega), hl, hc]
      congr 1
      · congr 2
        refine sum_congr rfl fun q hq => ?_
        have hq := mem_range.mp hq
        rw [block_mod' hj (by omega), hc]
      · congr 2
        refine sum_congr rfl fun q hq => ?_
        have hq := mem_range.mp hq
        rw [block_mod' hj (by omega), pc j q hj hq]
  · refine sum_congr rfl fun j hj => sum_congr rfl fun q hq => ?_
    have hj := mem_range.mp hj
    have hq := mem_range.mp hq
    rw [block_mod' hj (by omega), pc j q hj hq]

/-- The constraints and the stationarity, periodic. -/
theorem splSol_per_spec (hnc : nc < n)
    {z : ℕ → K} (hsol : Solves ((n + 2 + nc) * nk1) (symCyclic ((n + 2 + nc) * nk1) (n + 1)
      (splSys n nc nk1 dx N ix x y w lo hi true).a) z (splSys n nc nk1 dx N ix x y w lo hi true).b)
    {c l : ℕ → ℕ → K} (hc : ∀ j q, c j q = z (j * (n + 2 + nc) + q))
    (hl : ∀ j k, l j k = z (j * (n + 2 + nc) + (n + 1 + k))) :
    (∀ j k, j < nk1 → k < nc + 1 → ∑ q ∈ range (n + 1), (q.choose k : K) * c j q = ratOf nk1 dx j k * c ((j + 1) % nk1) k) ∧
    ∀ dc : ℕ → ℕ → K, ∑ j ∈ range nk1, ∑ q ∈ range (n + 1), dc j q *
        (∑ q' ∈ range (n + 1), xpOf N ix x w j (q + q') * c j q' - byOf N ix x y w j q) +
      ∑ j ∈ range nk1, ∑ k ∈ range (nc + 1), l j k *
        (∑ q ∈ range (n + 1), (q.choose k : K) * dc j q - ratOf nk1 dx j k * dc ((j + 1) % nk1) k) = 0 := by
  have W := splSol_per hnc hsol hc hl
  constructor
  · intro j0 k0 hj0 hk0
    have := W 0 (fun j k => if j = j0 ∧ k = k0 then 1 else 0)
    simp only [Pi.zero_apply, zero_mul, sum_const_zero, zero_add, mul_zero, add_zero, blockForm, gap, ite_mul, one_mul, sub_self] at this
    rw [sum_eq_single j0] at this
    · rw [sum_eq_single k0] at this
      · rw [if_pos ⟨rfl, rfl⟩] at this
        exact sub_eq_zero.mp this
      · intro k _ hkk; rw [if_neg (by tauto)]
      · intro hh; exact absurd (mem_range.mpr hk0) hh
    · intro j _ hjj; exact sum_eq_zero fun k _ => if_neg (by tauto)
    · intro hh; exact absurd (mem_range.mpr hj0) hh
  · intro dc
    have := W dc 0
    simp only [Pi.zero_apply, zero_mul, zero_add, blockForm] at this
    rw [← sub_eq_zero] at this
    rw [← this]
    simp only [sum_add_distrib, mul_sub, sum_sub_distrib, gap]
    ring

end Fit
end Npplus
