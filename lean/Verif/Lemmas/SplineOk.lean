import Verif.Props.Spline
import Mathlib.LinearAlgebra.Matrix.ToLinearEquiv
import Mathlib.Tactic.IntervalCases
import Mathlib.Tactic.Positivity

/-!
# When the spline system is nonsingular
-/

set_option linter.unusedSectionVars false

namespace Npplus

open Spec Finset PwPoly

variable {K : Type} [Field K] [LinearOrder K] [IsStrictOrderedRing K] {V : Type} [AddCommGroup V] [Module K V]
  {inv : InvFun K} {S : Scipy K} {x : List K} {y : List V} {n : ℕ} {lo hi : List (Option V)}

theorem nonsing_iff_kernel {N : ℕ} {A : ℕ → ℕ → K} :
    Nonsing N A ↔ ∀ v : ℕ → K, Solves N A v (fun _ => 0) → ∀ i < N, v i = 0 := by
  constructor
  · intro h v hv i hi
    have := Matrix.eq_zero_of_mulVec_eq_zero h (v := fun j : Fin N => v j) (by
      funext i
      have := hv i i.2
      simp only [Matrix.mulVec, dotProduct, Matrix.of_apply, Pi.zero_apply]
      rw [Finset.sum_range] at this; exact this)
    exact congrFun this ⟨i, hi⟩
  · intro h h0
    obtain ⟨v, hv0, hv⟩ := Matrix.exists_mulVec_eq_zero_iff.mpr h0
    apply hv0
    set w : ℕ → K := fun j => if hj : j < N then v ⟨j, hj⟩ else 0 with hw
    have hwv : ∀ j : Fin N, w j = v j := by intro j; simp [hw]
    have := h w (by
      intro i hi
      have := congrFun hv ⟨i, hi⟩
      simp only [Matrix.mulVec, dotProduct, Matrix.of_apply, Pi.zero_apply] at this
      rw [← this, Finset.sum_range]
      refine sum_congr rfl fun j _ => ?_
      rw [hwv]; rfl)
    funext i
    rw [← hwv]; exact this i i.2

namespace Spl

/-- Boundary conditions with all the values replaced by 0. -/
def zb (K : Type) [Field K] (l : List (Option V)) : List (Option K) := l.map (Option.map fun _ => 0)

theorem nspec_zb (l : List (Option V)) : nspec (zb K l) = nspec l := by
  unfold zb nspec
  rw [List.countP_map]
  congr 1
  funext o
  simp

theorem hiLoop_fst {n nun : ℕ} (dxl : K) (l : List (Option V)) : ∀ (i k : ℕ) (ab : ℕ → ℕ → K) (b : ℕ → V) (b' : ℕ → K),
    (hiLoop n nun dxl l i k (ab, b)).1 = (hiLoop n nun dxl (zb K l) i k (ab, b')).1 := by
  induction l with
  | nil => intros; rfl
  | cons o l ih =>
    intro i k ab b b'
    cases o with
    | none => exact ih _ _ _ _ _
    | some v => exact ih _ _ _ _ _

theorem hiLoop_snd {n nun : ℕ} (dxl : K) (l : List (Option V)) : ∀ (i k : ℕ) (ab : ℕ → ℕ → K),
    (hiLoop n nun dxl (zb K l) i k (ab, fun _ => (0 : K))).2 = fun _ => 0 := by
  induction l with
  | nil => intros; rfl
  | cons o l ih =>
    intro i k ab
    cases o with
    | none => exact ih _ _ _
    | some v =>
      have := ih (i + 1) (k + 1) (fun r c => if k < r ∧ r ≤ n ∧ c = nun - n + k + (n - r) then
          (bicoRow K n (i + 1)).getD (k + (n - r) + 1) 0 else ab r c)
      have e : Function.update (fun _ => (0 : K)) (nun - (n - 1) + k) (dxl ^ (i + 1) • (0 : K)) = fun _ => 0 := by
        funext t; by_cases h : t = nun - (n - 1) + k
        · subst h; simp
        · rw [Function.update_of_ne h]
      refine Eq.trans ?_ this
      conv_lhs => unfold zb; simp only [List.map_cons, Option.map_some]; unfold hiLoop
      rw [e]; rfl

theorem loLoop_fst {n : ℕ} (dx0 : K) (l : List (Option V)) : ∀ (i k j : ℕ) (ab : ℕ → ℕ → K) (b : ℕ → V) (b' : ℕ → K),
    (loLoop n dx0 l i k j (ab, b)).1 = (loLoop n dx0 (zb K l) i k j (ab, b')).1 := by
  induction l with
  | nil => intros; rfl
  | cons o l ih =>
    intro i k j ab b b'
    cases o with
    | none => exact ih _ _ _ _ _ _
    | some v => exact ih _ _ _ _ _ _

theorem loLoop_snd {n : ℕ} (dx0 : K) (l : List (Option V)) : ∀ (i k j : ℕ) (ab : ℕ → ℕ → K),
    (loLoop n dx0 (zb K l) i k j (ab, fun _ => (0 : K))).2 = fun _ => 0 := by
  induction l with
  | nil => intros; rfl
  | cons o l ih =>
    intro i k j ab
    cases o with
    | none => exact ih _ _ _ _
    | some v =>
      have := ih (i + 1) (k - 1) (j - 1) (fun r c => if r = j - 1 - (n - 1 - 1 - i) ∧ c = n - 1 - 1 - i then 1 else ab r c)
      have e : Function.update (fun _ => (0 : K)) k (dx0 ^ (n - 1 - 1 - i + 1) • (0 : K)) = fun _ => 0 := by
        funext t; by_cases h : t = k
        · subst h; simp
        · rw [Function.update_of_ne h]
      refine Eq.trans ?_ this
      conv_lhs => unfold zb; simp only [List.map_cons, Option.map_some]; unfold loLoop
      simp only [e]; rfl

theorem system_fst {nlo : ℕ} : (system n x y lo hi nlo).1 =
    (system (V := K) n x [] (zb K lo) (zb K hi) nlo).1 := by
  unfold system
  simp only
  have h1 := hiLoop_fst (n := n) (nun := (x.length - 1) * n) (width x (x.length - 1 - 1)) hi 0 0
    (fun r c => if r = 0 ∧ c < n - 1 then 0 else baseAB n (x.length - 1) (width x) r c) (baseB n y)
    (baseB n ([] : List K))
  rw [← h1]
  have : (zb K lo).reverse = zb K lo.reverse := by unfold zb; rw [List.map_reverse]
  rw [this]
  exact loLoop_fst _ _ _ _ _ _ _ _

theorem system_snd {nlo : ℕ} : (system (V := K) n x [] (zb K lo) (zb K hi) nlo).2 = fun _ => 0 := by
  unfold system
  simp only
  have h0 : baseB n ([] : List K) = fun _ => 0 := by
    funext i; unfold baseB; split_ifs <;> simp
  rw [h0]
  have h1 := hiLoop_snd (n := n) (nun := (x.length - 1) * n) (width x (x.length - 1 - 1)) hi 0 0
    (fun r c => if r = 0 ∧ c < n - 1 then 0 else baseAB n (x.length - 1) (width x) r c)
  rw [h1]
  have : (zb K lo).reverse = zb K lo.reverse := by unfold zb; rw [List.map_reverse]
  rw [this, if_congr Iff.rfl (rfl : (fun _ => (0 : K)) = fun _ => 0) rfl, ite_self]
  exact loLoop_snd _ _ _ _ _ _

/-- The homogeneous problem: a spline with zero data and zero boundary values. -/
structure Hom (n : ℕ) (x : List K) (lo hi : List (Option V)) (z : ℕ → K) : Prop where
  sys : Sys n x ([] : List K) z
  lo0 : ∀ q, (bcItem lo q).isSome → z q = 0
  hi0 : ∀ q, (bcItem hi q).isSome →
    ∑ q' ∈ range n, ((q' + 1).choose (q + 1) : K) • z ((x.length - 2) * n + q') = 0

/-- The system is nonsingular when the homogeneous problem has only the trivial solution. -/
theorem nonsing_of_hom {nlo : ℕ} (hn : 2 ≤ n) (hx : 2 ≤ x.length) (hlo : lo.length = n - 1)
    (hhi : hi.length ≤ n - 1) (hnlo : nspec lo = nlo) (htot : nlo + nspec hi = n - 1)
    (h : ∀ z, Hom n x lo hi z → ∀ i < (x.length - 1) * n, z i = 0) :
    Nonsing ((x.length - 1) * n) (bandMat (1 + nlo) (n - 1 - nlo) (system n x y lo hi nlo).1) := by
  rw [nonsing_iff_kernel]
  intro z hz
  rw [system_fst] at hz
  have h2 : Solves ((x.length - 1) * n) (bandMat (1 + nlo) (n - 1 - nlo)
      (system (V := K) n x [] (zb K lo) (zb K hi) nlo).1) z (system (V := K) n x [] (zb K lo) (zb K hi) nlo).2 := by
    rw [system_snd]; exact hz
  obtain ⟨s1, s2, s3⟩ := system_spec hn hx (by simp [zb, hlo]) (by simp [zb]; exact hhi)
    (by rw [nspec_zb]; exact hnlo) (by rw [nspec_zb]; exact htot) h2
  have conv : ∀ (l : List (Option V)) q, (bcItem l q).isSome → (zb K l)[q]? = some (some 0) := by
    intro l q hq
    unfold bcItem at hq
    rw [List.getD_eq_getElem?_getD] at hq
    unfold zb
    rw [List.getElem?_map]
    cases hl : l[q]? with
    | none => rw [hl] at hq; simp at hq
    | some o =>
      rw [hl] at hq
      cases o with
      | none => simp at hq
      | some v => rfl
  refine h z ⟨s1, fun q hq => ?_, fun q hq => ?_⟩
  · rw [s2 q 0 (conv _ _ hq), smul_zero]
  · have := s3 q 0 (conv _ _ hq)
    rw [smul_zero] at this
    rw [← this, show x.length - 1 - 1 = x.length - 2 by omega]

/-- `spline` returns when the homogeneous problem has only the trivial solution. -/
theorem nonper_success (hS : ScipyOK S) (hs : x.Pairwise (· < ·)) (hx : 2 ≤ x.length)
    (hy : y.length = x.length) (hn : 1 ≤ n) (hlo : lo.length ≤ n - 1) (hhi : hi.length ≤ n - 1)
    (hc : bcCount lo + bcCount hi ≤ n - 1) {e : ℕ × ℕ}
    (h : 2 ≤ n → ∀ lo' hi', Completed n lo hi lo' hi' → ∀ z, Hom n x lo' hi' z → ∀ i < (x.length - 1) * n, z i = 0) :
    ∃ p, nonper inv S x y n lo hi e = .ok p := by
  unfold nonper
  simp only [bind, Except.bind, pure, Except.pure]
  by_cases hn2 : n < 2
  · have hn1 : n = 1 := by omega
    subst hn1
    rw [if_pos hn2, init_odd inv hs hx (by simp) (by simpa using hy)]
    exact ⟨_, rfl⟩
  · rw [if_neg hn2]
    rw [bcCount_eq, bcCount_eq] at hc
    obtain ⟨lo', hi', nlo, e1, e2, e3, C⟩ := fillBC_ok hlo hhi hc
    rw [e1]
    simp only
    have htot := C.total
    rw [bcCount_eq, bcCount_eq] at htot
    have hns := nonsing_of_hom (y := y) (by omega) hx e3 C.len_hi e2.symm (by omega) (h (by omega) lo' hi' C)
    obtain ⟨z, hz⟩ := hS.banded_complete _ _ _ _ (system n x y lo' hi' nlo).2 hns
    unfold solveBanded
    simp only [ne_eq, not_true_eq_false, if_false]
    rw [if_neg (by omega), hz]
    exact ⟨_, rfl⟩

/-! ### one sided conditions -/

/-- A polynomial of degree `n` without constant term which vanishes at 1 with `n-1` derivatives is 0. -/
theorem right_trivial {n : ℕ} (hn : 1 ≤ n) {w : ℕ → K} (h0 : ∑ q ∈ range n, w q = 0)
    (h : ∀ m, 1 ≤ m → m < n → ∑ q ∈ range n, ((q + 1).choose m : K) • w q = 0) : ∀ q < n, w q = 0 := by
  set c : List K := 0 :: (List.range n).map w with hcdef
  have hlen : c.length = n + 1 := by simp [hcdef]
  have hget : ∀ q < n, c.getD (q + 1) 0 = w q := by
    intro q hq
    simp [hcdef, hq]
  have htc : ∀ k < n, taylorCoeff c (1 : K) k = 0 := by
    intro k hk
    unfold taylorCoeff
    rw [hlen, sum_range_succ']
    simp only [one_pow, mul_one]
    have : c.getD 0 0 = 0 := rfl
    rw [this, smul_zero, add_zero]
    rcases Nat.eq_zero_or_pos k with hk0 | hk0
    · subst hk0
      refine Eq.trans ?_ h0
      refine sum_congr rfl fun q hq => ?_
      rw [hget q (mem_range.mp hq)]; simp
    · refine Eq.trans ?_ (h k hk0 hk)
      refine sum_congr rfl fun q hq => ?_
      rw [hget q (mem_range.mp hq)]
  have hinv : ∀ k, c.getD k 0 = ((n.choose k : K) * (-1) ^ (n - k)) • taylorCoeff c (1 : K) n := by
    intro k
    have := sum_taylor_taylor c (1 : K) (-1) k (n + 1) hlen.le
    rw [add_neg_cancel, taylorCoeff_at_zero, sum_range_succ, sum_eq_zero, zero_add] at this
    · exact this.symm
    · intro j hj; rw [htc j (mem_range.mp hj), smul_zero]
  have hT : taylorCoeff c (1 : K) n = 0 := by
    have := hinv 0
    rw [show c.getD 0 0 = 0 from rfl] at this
    have h2 := this.symm
    rw [smul_eq_mul, mul_eq_zero] at h2
    rcases h2 with h2 | h2
    · simp at h2
    · exact h2
  intro q hq
  rw [← hget q hq, hinv, hT, smul_zero]

theorem left_trivial {n : ℕ} {w : ℕ → K} (h0 : ∑ q ∈ range n, w q = 0) (h : ∀ q, q + 1 < n → w q = 0) :
    ∀ q < n, w q = 0 := by
  intro q hq
  rcases Nat.lt_or_ge (q + 1) n with h1 | h1
  · exact h q h1
  · obtain ⟨m, rfl⟩ : ∃ m, n = m + 1 := ⟨n - 1, by omega⟩
    have : q = m := by omega
    subst this
    rw [sum_range_succ, sum_eq_zero, zero_add] at h0
    · exact h0
    · intro i hi; exact h i (by have := mem_range.mp hi; omega)

theorem block_cases {n N i : ℕ} (hi : i < N * n) : ∃ j q, j < N ∧ q < n ∧ i = j * n + q := by
  have hn : 0 < n := by
    rcases Nat.eq_zero_or_pos n with h | h
    · subst h; simp at hi
    · exact h
  refine ⟨i / n, i % n, ?_, Nat.mod_lt _ hn, ?_⟩
  · exact (Nat.div_lt_iff_lt_mul hn).mpr hi
  · rw [Nat.mul_comm]; exact (Nat.div_add_mod i n).symm

theorem Sys.val0 {z : ℕ → K} (h : Sys n x ([] : List K) z) {j : ℕ} (hj : j < x.length - 1) :
    ∑ q ∈ range n, z (j * n + q) = 0 := by
  rw [h.val j hj]; simp

/-- All conditions at the first knot. -/
theorem hom_lo {z : ℕ → K} (hs : x.Pairwise (· < ·)) (h : Sys n x ([] : List K) z) (h0 : ∀ q, q + 1 < n → z q = 0) :
    ∀ i < (x.length - 1) * n, z i = 0 := by
  have key : ∀ j, j < x.length - 1 → ∀ q < n, z (j * n + q) = 0 := by
    intro j
    induction j with
    | zero =>
      intro hj
      exact left_trivial (w := fun q => z (0 * n + q)) (h.val0 hj) (fun q hq => by simpa using h0 q hq)
    | succ j ih =>
      intro hj
      refine left_trivial (w := fun q => z ((j + 1) * n + q)) (h.val0 hj) (fun q hq => ?_)
      have := h.cont j (by omega) (q + 1) (by omega) hq
      rw [sum_eq_zero (fun q' hq' => by rw [ih (by omega) q' (mem_range.mp hq'), smul_zero])] at this
      have hne : (width x j / width x (j + 1)) ^ (q + 1) ≠ 0 :=
        pow_ne_zero _ (div_ne_zero (width_ne hs (by omega)) (width_ne hs (by omega)))
      have h2 := this.symm
      rw [smul_eq_mul, mul_eq_zero] at h2
      simpa using h2.resolve_left hne
  intro i hi
  obtain ⟨j, q, hj, hq, rfl⟩ := block_cases hi
  exact key j hj q hq

/-- All conditions at the last knot. -/
theorem hom_hi {z : ℕ → K} (hn : 1 ≤ n) (hx : 2 ≤ x.length) (h : Sys n x ([] : List K) z)
    (h0 : ∀ m, 1 ≤ m → m < n → ∑ q ∈ range n, ((q + 1).choose m : K) • z ((x.length - 2) * n + q) = 0) :
    ∀ i < (x.length - 1) * n, z i = 0 := by
  have key : ∀ d j, j + d = x.length - 2 → ∀ q < n, z (j * n + q) = 0 := by
    intro d
    induction d with
    | zero =>
      intro j hj
      have hj' : j = x.length - 2 := by omega
      subst hj'
      exact right_trivial (w := fun q => z ((x.length - 2) * n + q)) hn (h.val0 (by omega)) h0
    | succ d ih =>
      intro j hj
      refine right_trivial (w := fun q => z (j * n + q)) hn (h.val0 (by omega)) (fun m hm hmn => ?_)
      rw [h.cont j (by omega) m hm hmn, ih (j + 1) (by omega) (m - 1) (by omega), smul_zero]
  intro i hi
  obtain ⟨j, q, hj, hq, rfl⟩ := block_cases hi
  exact key (x.length - 2 - j) j (by omega) q hq

/-! ### cubic -/

/-- The energy identity on one interval: value differences are zero, `sL, mL` slope and half second derivative at
the left end, `sR, mR` at the right end. -/
theorem cubic_energy {w a b c sR mR : K} (hw : 0 < w) (h0 : a + b + c = 0) (h1 : sR * w = a + 2 * b + 3 * c)
    (h2 : mR * w ^ 2 = b + 3 * c) :
    3 * (sR * mR - (a / w) * (b / w ^ 2)) = w * ((b / w ^ 2 + mR) ^ 2 + (b / w ^ 2) ^ 2 + mR ^ 2) := by
  have ha : a = -b - c := by linarith
  have hw0 : w ≠ 0 := hw.ne'
  have e1 : sR = (a + 2 * b + 3 * c) / w := by field_simp; linarith
  have e2 : mR = (b + 3 * c) / w ^ 2 := by field_simp; linarith
  rw [e1, e2, ha]
  field_simp
  ring

theorem cubic_chain {N : ℕ} {w s m : ℕ → K} (hw : ∀ j < N, 0 < w j)
    (hE : ∀ j < N, 3 * (s (j + 1) * m (j + 1) - s j * m j) = w j * ((m j + m (j + 1)) ^ 2 + m j ^ 2 + m (j + 1) ^ 2))
    (h0 : s N * m N = s 0 * m 0) : ∀ j < N, m j = 0 ∧ m (j + 1) = 0 := by
  have hsum : ∑ j ∈ range N, w j * ((m j + m (j + 1)) ^ 2 + m j ^ 2 + m (j + 1) ^ 2) = 0 := by
    rw [← sum_congr rfl (fun j hj => hE j (mem_range.mp hj)), ← mul_sum, sum_range_sub (fun j => s j * m j), h0,
      sub_self, mul_zero]
  have hnn : ∀ j ∈ range N, 0 ≤ w j * ((m j + m (j + 1)) ^ 2 + m j ^ 2 + m (j + 1) ^ 2) := by
    intro j hj
    exact mul_nonneg (hw j (mem_range.mp hj)).le (by positivity)
  intro j hj
  have h1 := (sum_eq_zero_iff_of_nonneg hnn).mp hsum j (mem_range.mpr hj)
  have h2 : (m j + m (j + 1)) ^ 2 + m j ^ 2 + m (j + 1) ^ 2 = 0 := by
    rcases mul_eq_zero.mp h1 with h | h
    · exact absurd h (hw j hj).ne'
    · exact h
  have a := sq_nonneg (m j + m (j + 1))
  have b := sq_nonneg (m j)
  have c := sq_nonneg (m (j + 1))
  exact ⟨pow_eq_zero_iff (two_ne_zero) |>.mp (by linarith), pow_eq_zero_iff (two_ne_zero) |>.mp (by linarith)⟩

/-- Slope at the left end of interval `j`; beyond the last one the slope at the right end. -/
def sl (x : List K) (z : ℕ → K) (j : ℕ) : K :=
  if j < x.length - 1 then z (j * 3) / width x j
  else (z ((j - 1) * 3) + 2 * z ((j - 1) * 3 + 1) + 3 * z ((j - 1) * 3 + 2)) / width x (j - 1)

/-- Half the second derivative. -/
def ml (x : List K) (z : ℕ → K) (j : ℕ) : K :=
  if j < x.length - 1 then z (j * 3 + 1) / width x j ^ 2
  else (z ((j - 1) * 3 + 1) + 3 * z ((j - 1) * 3 + 2)) / width x (j - 1) ^ 2

/-- A cubic spline through zeros with equal energy flux at the two ends is zero. -/
theorem hom_cubic {z : ℕ → K} (hs : x.Pairwise (· < ·)) (h : Sys 3 x ([] : List K) z)
    (h0 : sl x z (x.length - 1) * ml x z (x.length - 1) = sl x z 0 * ml x z 0) :
    ∀ i < (x.length - 1) * 3, z i = 0 := by
  have e1 : ∀ j, ∑ q ∈ range 3, ((q + 1).choose 1 : K) • z (j * 3 + q) =
      z (j * 3) + 2 * z (j * 3 + 1) + 3 * z (j * 3 + 2) := by
    intro j; simp [sum_range_succ, Nat.choose]; ring
  have e2 : ∀ j, ∑ q ∈ range 3, ((q + 1).choose 2 : K) • z (j * 3 + q) =
      z (j * 3 + 1) + 3 * z (j * 3 + 2) := by
    intro j
    rw [sum_range_succ, sum_range_succ, sum_range_succ, sum_range_zero]
    norm_num [Nat.choose]
  have hw : ∀ j < x.length - 1, 0 < width x j := fun j hj => width_pos hs (by omega)
  have hS : ∀ j < x.length - 1, sl x z (j + 1) * width x j = z (j * 3) + 2 * z (j * 3 + 1) + 3 * z (j * 3 + 2) := by
    intro j hj
    have hwj := (hw j hj).ne'
    unfold sl
    split_ifs with hc
    · have hwj1 := (hw (j + 1) hc).ne'
      have := h.cont j hc 1 le_rfl (by omega)
      rw [e1] at this
      rw [this]
      simp only [smul_eq_mul, pow_one, Nat.sub_self, add_zero]
      field_simp
    · simp only [Nat.add_sub_cancel]
      rw [div_mul_cancel₀ _ hwj]
  have hM : ∀ j < x.length - 1, ml x z (j + 1) * width x j ^ 2 = z (j * 3 + 1) + 3 * z (j * 3 + 2) := by
    intro j hj
    have hwj := (hw j hj).ne'
    unfold ml
    split_ifs with hc
    · have hwj1 := (hw (j + 1) hc).ne'
      have := h.cont j hc 2 (by omega) (by omega)
      rw [e2] at this
      rw [this]
      simp only [smul_eq_mul]
      field_simp
    · simp only [Nat.add_sub_cancel]
      rw [div_mul_cancel₀ _ (pow_ne_zero _ hwj)]
  have hV : ∀ j < x.length - 1, z (j * 3) + z (j * 3 + 1) + z (j * 3 + 2) = 0 := by
    intro j hj
    have := h.val0 hj
    simpa [sum_range_succ] using this
  have hm := cubic_chain (s := sl x z) (m := ml x z) hw (fun j hj => by
    have := cubic_energy (hw j hj) (hV j hj) (hS j hj) (hM j hj)
    have a1 : sl x z j = z (j * 3) / width x j := by unfold sl; rw [if_pos hj]
    have a2 : ml x z j = z (j * 3 + 1) / width x j ^ 2 := by unfold ml; rw [if_pos hj]
    rw [a1, a2]; exact this) h0
  intro i hi
  obtain ⟨j, q, hj, hq, rfl⟩ := block_cases hi
  obtain ⟨m1, m2⟩ := hm j hj
  have a2 : ml x z j = z (j * 3 + 1) / width x j ^ 2 := by unfold ml; rw [if_pos hj]
  have hb : z (j * 3 + 1) = 0 := by
    rw [a2] at m1
    rcases div_eq_zero_iff.mp m1 with h | h
    · exact h
    · exact absurd h (pow_ne_zero _ (hw j hj).ne')
  have hc : z (j * 3 + 2) = 0 := by
    have := hM j hj
    rw [m2, zero_mul, hb] at this
    linarith
  have ha : z (j * 3) = 0 := by have := hV j hj; rw [hb, hc] at this; linarith
  interval_cases q
  · exact ha
  · exact hb
  · exact hc

/-! ### periodic -/

/-- The rows of the last interval when the corner elements are removed. -/
theorem band_last {nk1 : ℕ} (hk : 1 ≤ nk1) (dx : ℕ → K) (z : ℕ → K) {m : ℕ} (hm : 1 ≤ m) (hmn : m < n) :
    (∑ r ∈ range (n + 1), if r ≤ (nk1 - 1) * n + m + (n - 1) ∧ (nk1 - 1) * n + m + (n - 1) - r < nk1 * n then
      baseAB n nk1 dx r ((nk1 - 1) * n + m + (n - 1) - r) • z ((nk1 - 1) * n + m + (n - 1) - r) else 0) =
    ∑ q ∈ range n, ((q + 1).choose m : K) • z ((nk1 - 1) * n + q) := by
  obtain ⟨j, rfl⟩ : ∃ j, nk1 = j + 1 := ⟨nk1 - 1, by omega⟩
  rw [Nat.add_sub_cancel]
  have hmul : (j + 1) * n = j * n + n := by ring
  have := row_cont (K := K) hm hmn (fun r => if r ≤ j * n + m + (n - 1) ∧ j * n + m + (n - 1) - r < (j + 1) * n then
      baseAB n (j + 1) dx r (j * n + m + (n - 1) - r) • z (j * n + m + (n - 1) - r) else 0) 0
      (fun q => z (j * n + q)) ?_ (fun r h1 h2 => ?_) (fun r h1 h2 => ?_)
  · rw [this, sub_zero]
  · rw [if_neg (by rw [hmul]; omega), neg_zero]
  · rw [if_neg (by rw [hmul]; omega)]
  · have e : j * n + m + (n - 1) - r = j * n + (m + n - r - 1) := by omega
    rw [e, if_pos ⟨by omega, block_lt (by omega) (by omega)⟩,
      baseAB_mid dx (by omega) h2 (by omega) (by omega), show m + n - r - 1 + 1 = m + n - r by omega]
    congr 2
    rw [← Nat.choose_symm (show n - r ≤ m + n - r by omega), show m + n - r - (n - r) = m by omega]

/-- The band part of the periodic system is always nonsingular. -/
theorem band_nonsing (hn : 2 ≤ n) (hx : 2 ≤ x.length) :
    Nonsing ((x.length - 1) * n) (bandMat 1 (n - 1) (baseAB n (x.length - 1) (width x))) := by
  rw [nonsing_iff_kernel]
  intro z hz
  set nk1 := x.length - 1 with hnk1
  have hrow : ∀ i < nk1 * n, (∑ r ∈ range (n + 1), if r ≤ i + (n - 1) ∧ i + (n - 1) - r < nk1 * n then
      baseAB n nk1 (width x) r (i + (n - 1) - r) • z (i + (n - 1) - r) else 0) = 0 := by
    intro i hi
    have := hz i hi
    rw [band_row, show 1 + (n - 1) + 1 = n + 1 by omega, Nat.add_comm (n - 1) i] at this
    exact this
  refine hom_hi (by omega) hx ⟨fun j hj => ?_, fun j hj m hm hmn => ?_⟩ (fun m hm hmn => ?_)
  · rw [← band_val (nk1 := nk1) (by omega) (width x) (baseAB n nk1 (width x)) z (by omega) (fun _ _ _ => rfl), hrow]
    · simp
    · have := block_lt (q := 0) (show 0 < n by omega) (show j < nk1 by omega); omega
  · have := band_cont (nk1 := nk1) (width x) (baseAB n nk1 (width x)) z (j := j) (by omega) hm hmn (fun _ _ _ => rfl)
    rw [hrow _ (block_lt hmn (by omega))] at this
    exact (sub_eq_zero.mp this.symm)
  · rw [show x.length - 2 = nk1 - 1 by omega, ← band_last (by omega) (width x) z hm hmn,
      hrow _ (block_lt hmn (by omega))]

/-- What a solution of the homogeneous periodic system satisfies. -/
theorem cyclic_hom (hn : 2 ≤ n) (hx : 2 ≤ x.length) {z : ℕ → K}
    (hz : Solves ((x.length - 1) * n) (cyclicMat ((x.length - 1) * n) 1 (n - 1) (baseAB n (x.length - 1) (width x))) z
      (fun _ => 0)) : Sys n x ([] : List K) z ∧ ∀ m, 1 ≤ m → m < n →
        ∑ q ∈ range n, ((q + 1).choose m : K) • z ((x.length - 2) * n + q) =
          (width x (x.length - 2) / width x 0) ^ m • z (m - 1) := by
  set nk1 := x.length - 1 with hnk1
  have hN : 0 < nk1 * n := Nat.mul_pos (by omega) (by omega)
  have hle : 1 + (n - 1) ≤ nk1 * n := by
    have := Nat.le_mul_of_pos_left n (show 0 < nk1 by omega); omega
  have hrow : ∀ i < nk1 * n, ∑ r ∈ range (n + 1),
      baseAB n nk1 (width x) r ((i + (n - 1) + (nk1 * n - r)) % (nk1 * n)) •
        z ((i + (n - 1) + (nk1 * n - r)) % (nk1 * n)) = 0 := by
    intro i hi
    have := hz i hi
    rw [cyclic_row 1 (n - 1) (nk1 * n) hN hle, show 1 + (n - 1) + 1 = n + 1 by omega] at this
    exact this
  have hcont : ∀ j < nk1, ∀ m, 1 ≤ m → m < n → ∑ q ∈ range n, ((q + 1).choose m : K) • z (j * n + q) =
      (width x j / width x ((j + 1) % nk1)) ^ m • z (((j + 1) % nk1) * n + (m - 1)) := by
    intro j hj m hm hmn
    have := cyc_cont (width x) z hj hm hmn
    rw [hrow _ (block_lt hmn hj)] at this
    exact sub_eq_zero.mp this.symm
  refine ⟨⟨fun j hj => ?_, fun j hj m hm hmn => ?_⟩, fun m hm hmn => ?_⟩
  · have hjn := block_lt (show 0 < n by omega) (show j < nk1 by omega)
    rw [← cyc_val (nk1 := nk1) (by omega) (width x) z (by omega), hrow _ (by omega)]; simp
  · rw [hcont j (by omega) m hm hmn, Nat.mod_eq_of_lt (by omega)]
  · have := hcont (nk1 - 1) (by omega) m hm hmn
    rw [show nk1 - 1 + 1 = nk1 by omega, Nat.mod_self, Nat.zero_mul, Nat.zero_add,
      show nk1 - 1 = x.length - 2 by omega] at this
    exact this

/-- A periodic spline returns when the homogeneous periodic problem has only the trivial solution. -/
theorem periodic_success (hS : ScipyOK S) (hs : x.Pairwise (· < ·)) (hx : 2 ≤ x.length)
    (hy : y.length = x.length) (hn : 1 ≤ n)
    (h : 2 ≤ n → ∀ z : ℕ → K, Sys n x ([] : List K) z → (∀ m, 1 ≤ m → m < n →
        ∑ q ∈ range n, ((q + 1).choose m : K) • z ((x.length - 2) * n + q) =
          (width x (x.length - 2) / width x 0) ^ m • z (m - 1)) → ∀ i < (x.length - 1) * n, z i = 0) :
    ∃ P, Spl.periodic inv S x y n = .ok P := by
  unfold Spl.periodic
  simp only [bind, Except.bind, pure, Except.pure]
  set y' := y.set (y.length - 1) (y.getD 0 0) with hy'
  have hyl : y'.length = x.length := by simp [hy', hy]
  by_cases hn2 : n < 2
  · have hn1 : n = 1 := by omega
    subst hn1
    rw [if_pos hn2, init_odd inv hs hx (by simp) (by simpa using hyl)]
    simp only
    unfold PerPwPoly.new
    rw [if_neg (by change ¬ x.length < 2; omega)]
    exact ⟨_, rfl⟩
  · rw [if_neg hn2]
    have hN : (x.length - 1) * n ≠ 0 := (Nat.mul_pos (by omega) (by omega)).ne'
    have hle : 1 + (n - 1) ≤ (x.length - 1) * n := by
      have := Nat.le_mul_of_pos_left n (show 0 < x.length - 1 by omega); omega
    obtain ⟨z, hz⟩ := C37_succeeds hS (l := 1) (u := n - 1)
      (ab := ⟨n + 1, (x.length - 1) * n, baseAB n (x.length - 1) (width x)⟩) (baseB n y') hN hle
      (by change n + 1 = 1 + (n - 1) + 1; omega) (band_nonsing (by omega) hx) (by
        rw [nonsing_iff_kernel]
        intro v hv
        obtain ⟨a, b⟩ := cyclic_hom (by omega) hx hv
        exact h (by omega) v a b)
    simp only at hz
    rw [hz]
    simp only
    rw [new_assemble hn hx]
    exact ⟨_, rfl⟩

end Spl
end Npplus
