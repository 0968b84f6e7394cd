import Verif.Lemmas.SplineHom
import Mathlib.LinearAlgebra.FiniteDimensional.Lemmas

/-!
# The rows of the spline system: every solution of the homogeneous problem solves it
-/

set_option linter.unusedSectionVars false

namespace Npplus.Spl

open Spec Finset PwPoly

variable {K : Type} [Field K] [LinearOrder K] [IsStrictOrderedRing K] {V : Type} [AddCommGroup V] [Module K V]

theorem hiLoop_rows {n nun : ℕ} (dxl : K) (hn : n ≤ nun) (l : List (Option V)) :
    ∀ (i k : ℕ) (ab : ℕ → ℕ → K) (b : ℕ → V), i + l.length ≤ n - 1 → ∀ k', k ≤ k' → k' < k + nspec l →
    ∃ q v, l[q]? = some (some v) ∧ k' ≤ k + q ∧
      ∀ r, k' < r → r ≤ n → (hiLoop n nun dxl l i k (ab, b)).1 r (nun - n + k' + (n - r)) = ((k' + (n - r) + 1).choose (i + q + 1) : K) := by
  induction l with
  | nil => intro i k ab b _ k' h1 h2; simp at h2; omega
  | cons o l ih =>
    intro i k ab b hi k' h1 h2
    rw [List.length_cons] at hi
    cases o with
    | none =>
      obtain ⟨q, v, a1, a2, a3⟩ := ih (i + 1) k ab b (by omega) k' h1 (by simpa using h2)
      refine ⟨q + 1, v, by simpa using a1, by omega, ?_⟩
      rw [show i + (q + 1) + 1 = i + 1 + q + 1 by omega]; exact a3
    | some w =>
      rw [nspec_some] at h2
      set ab' : ℕ → ℕ → K := fun r c => if k < r ∧ r ≤ n ∧ c = nun - n + k + (n - r) then
          (bicoRow K n (i + 1)).getD (k + (n - r) + 1) 0 else ab r c with hab'
      set b' := Function.update b (nun - (n - 1) + k) (dxl ^ (i + 1) • w) with hb'
      have e : hiLoop n nun dxl (some w :: l) i k (ab, b) = hiLoop n nun dxl l (i + 1) (k + 1) (ab', b') := rfl
      rw [e]
      rcases Nat.eq_or_lt_of_le h1 with h3 | h3
      · subst h3
        obtain ⟨g1, -, -⟩ := hiLoop_spec (n := n) (nun := nun) dxl hn l (i + 1) (k + 1) ab' b' (by omega)
        refine ⟨0, w, rfl, by omega, fun r hr1 hr2 => ?_⟩
        rw [g1 _ _ (by omega), hab']
        simp only
        rw [if_pos ⟨hr1, hr2, trivial⟩, (bicoRow_spec n (i + 1) (by omega)).2 (k + (n - r) + 1) (by omega), Nat.add_zero]
      · obtain ⟨q, v, a1, a2, a3⟩ := ih (i + 1) (k + 1) ab' b' (by omega) k' h3 (by omega)
        refine ⟨q + 1, v, by simpa using a1, by omega, ?_⟩
        rw [show i + (q + 1) + 1 = i + 1 + q + 1 by omega]; exact a3

theorem loLoop_rows {n : ℕ} (dx0 : K) (l : List (Option V)) :
    ∀ (i k j : ℕ) (ab : ℕ → ℕ → K) (b : ℕ → V), i + l.length = n - 1 → nspec l ≤ k + 1 → nspec l ≤ j →
      n - 1 - i ≤ j → ∀ d < nspec l, ∃ q v, l[q]? = some (some v) ∧ d ≤ q ∧
      ∀ r c, r + c = j - 1 - d → (loLoop n dx0 l i k j (ab, b)).1 r c = if c = n - 1 - 1 - (i + q) then 1 else ab r c := by
  induction l with
  | nil => intro i k j ab b _ _ _ _ d hd; simp at hd
  | cons o l ih =>
    intro i k j ab b hi hk hj hij d hd
    rw [List.length_cons] at hi
    cases o with
    | none =>
      simp only [nspec_none] at hk hj hd
      obtain ⟨q, v, a1, a2, a3⟩ := ih (i + 1) k j ab b (by omega) hk hj (by omega) d hd
      refine ⟨q + 1, v, by simpa using a1, by omega, ?_⟩
      rw [show i + (q + 1) = i + 1 + q by omega]; exact a3
    | some w =>
      simp only [nspec_some] at hk hj hd
      rcases Nat.eq_zero_or_pos d with h0 | h0
      · subst h0
        obtain ⟨-, -, g3⟩ := loLoop_spec (n := n) dx0 (some w :: l) i k j ab b (by simpa using hi) (by simpa using hk) (by simpa using hj) hij
        obtain ⟨d, a1, a2, -, a4⟩ := g3 0 w rfl
        obtain rfl : d = 0 := by omega
        exact ⟨0, w, rfl, le_rfl, a4⟩
      · set ab' : ℕ → ℕ → K := fun r c => if r = j - 1 - (n - 1 - 1 - i) ∧ c = n - 1 - 1 - i then 1 else ab r c
          with hab'
        set b' := Function.update b k (dx0 ^ (n - 1 - 1 - i + 1) • w) with hb'
        have e : loLoop n dx0 (some w :: l) i k j (ab, b) = loLoop n dx0 l (i + 1) (k - 1) (j - 1) (ab', b') := rfl
        rw [e]
        obtain ⟨q, v, a1, a2, a3⟩ := ih (i + 1) (k - 1) (j - 1) ab' b' (by omega) (by omega) (by omega) (by omega) (d - 1) (by omega)
        refine ⟨q + 1, v, by simpa using a1, by omega, fun r c hrc => ?_⟩
        rw [show i + (q + 1) = i + 1 + q by omega, a3 r c (by omega)]
        split_ifs with hc
        · rfl
        · simp only [hab']; rw [if_neg]; rintro ⟨b1, b2⟩; omega

/-- A solution of the homogeneous problem solves the linear system with zero right hand side. -/
theorem hom_solves {n nlo : ℕ} (hn : 2 ≤ n) {x : List K} {y : List V} (hx : 2 ≤ x.length)
    {lo hi : List (Option V)} (hlo : lo.length = n - 1) (hhi : hi.length ≤ n - 1)
    (hnlo : nspec lo = nlo) (htot : nlo + nspec hi = n - 1) {z : ℕ → K} (hz : Hom n x lo hi z) :
    Solves ((x.length - 1) * n) (bandMat (1 + nlo) (n - 1 - nlo) (system n x y lo hi nlo).1) z (fun _ => 0) := by
  set nk1 := x.length - 1 with hnk1
  have hk1 : 1 ≤ nk1 := by omega
  set ab0 : ℕ → ℕ → K := fun r c => if r = 0 ∧ c < n - 1 then 0 else baseAB n nk1 (width x) r c with hab0
  obtain ⟨H1, -, -⟩ := hiLoop_spec (n := n) (nun := nk1 * n) (width x (nk1 - 1))
    (Nat.le_mul_of_pos_left n (by omega)) hi 0 0 ab0 (baseB n y) (by omega)
  have H3 := hiLoop_rows (n := n) (nun := nk1 * n) (width x (nk1 - 1))
    (Nat.le_mul_of_pos_left n (by omega)) hi 0 0 ab0 (baseB n y) (by omega)
  set hs := hiLoop n (nk1 * n) (width x (nk1 - 1)) hi 0 0 (ab0, baseB n y) with hhs
  set b1 : ℕ → V := if nlo ≠ 0 then fun i => hs.2 (rollIdx (nk1 * n) (nlo : ℤ) i) else hs.2 with hb1
  have hsys : system n x y lo hi nlo = loLoop n (width x 0) lo.reverse 0 (nlo - 1) (n - 1) (hs.1, b1) := by
    unfold system
    rw [← hnk1]
  obtain ⟨L1, -, -⟩ := loLoop_spec (n := n) (width x 0) lo.reverse 0 (nlo - 1) (n - 1) hs.1 b1
    (by simpa using hlo) (by rw [nspec_reverse]; omega) (by rw [nspec_reverse]; omega) (by omega)
  have L3 := loLoop_rows (n := n) (width x 0) lo.reverse 0 (nlo - 1) (n - 1) hs.1 b1
    (by simpa using hlo) (by rw [nspec_reverse]; omega) (by rw [nspec_reverse]; omega) (by omega)
  rw [← hsys] at L1 L3
  set s := system n x y lo hi nlo with hs'
  have hnn : n ≤ nk1 * n := Nat.le_mul_of_pos_left n (by omega)
  have hab : ∀ r c, n - 1 ≤ r + c → r + c < nk1 * n → s.1 r c = baseAB n nk1 (width x) r c := by
    intro r c h1 h2
    rw [L1 r c h1, H1 r c h2]
    simp only [hab0]
    rw [if_neg (by omega)]
  intro i hi'
  have hrow := band_row (1 + nlo) (n - 1 - nlo) (nk1 * n) s.1 z i
  rw [show 1 + nlo + (n - 1 - nlo) + 1 = n + 1 by omega] at hrow
  rw [hrow]
  clear hrow
  obtain ⟨e, he⟩ : ∃ e, e = n - 1 - nlo + i := ⟨_, rfl⟩
  rw [← he]
  obtain ⟨jj, hjj⟩ : ∃ i, nk1 = i + 1 := ⟨nk1 - 1, by omega⟩
  have hmul : nk1 * n = jj * n + n := by rw [hjj]; ring
  have hitem : ∀ {l : List (Option V)} {q : ℕ} {v : V}, l[q]? = some (some v) → (bcItem l q).isSome := by
    intro l q v h
    unfold bcItem
    rw [List.getD_eq_getElem?_getD, h]; rfl
  rcases Nat.lt_or_ge i nlo with hilo | hilo
  · -- a condition at the first knot
    obtain ⟨q0, v, a1, a2, a3⟩ := L3 (nlo - 1 - i) (by rw [nspec_reverse]; omega)
    have hq0 : q0 < n - 1 := by
      have := (List.getElem?_eq_some_iff.1 a1).1
      simpa [hlo] using this
    have a1' : lo[n - 1 - 1 - q0]? = some (some v) := by
      rw [List.getElem?_reverse (by omega), hlo] at a1; exact a1
    set q := n - 1 - 1 - q0 with hq
    rw [Nat.zero_add] at a3
    have hzq := hz.lo0 q (hitem a1')
    apply sum_eq_zero
    intro r hr
    rw [mem_range] at hr
    split_ifs with hc
    · rw [a3 r (e - r) (by omega)]
      split_ifs with hcq
      · rw [hcq, ← hq, hzq, smul_zero]
      · rw [H1 _ _ (by omega)]
        simp only [hab0]
        rcases Nat.eq_zero_or_pos r with h0 | h0
        · rw [if_pos ⟨h0, by omega⟩, zero_smul]
        · rw [if_neg (by omega)]
          have := baseAB_mid (n := n) (nk1 := nk1) (width x) (r := r) (j := 0) (q := e - r) h0 (by omega) (by omega) (by omega)
          rw [Nat.zero_mul, Nat.zero_add] at this
          rw [this, Nat.choose_eq_zero_of_lt (by omega)]; simp
    · rfl
  rcases Nat.lt_or_ge e (nk1 * n) with hehi | hehi
  · -- the inside
    obtain ⟨m, j, hm, hej⟩ : ∃ m j, m < n ∧ e = j * n + m + (n - 1) := by
      refine ⟨(e - (n - 1)) % n, (e - (n - 1)) / n, Nat.mod_lt _ (by omega), ?_⟩
      have := Nat.div_add_mod (e - (n - 1)) n
      rw [Nat.mul_comm] at this
      omega
    rcases Nat.eq_zero_or_pos m with h0 | h0
    · subst h0
      rw [Nat.add_zero] at hej
      have hj : j < nk1 := by
        by_contra hc
        have := Nat.mul_le_mul_right n (show nk1 ≤ j by omega)
        omega
      rw [hej, band_val hn (width x) s.1 z hj (fun r c h => hab r c (by omega) (by omega))]
      exact hz.sys.val0 (by omega)
    · have hj : j + 1 < nk1 := by
        by_contra hc
        have h1 := Nat.mul_le_mul_right n (show nk1 ≤ j + 1 by omega)
        rw [Nat.succ_mul] at h1
        omega
      rw [hej, band_cont (width x) s.1 z hj h0 hm (fun r c h => hab r c (by omega) (by omega)), sub_eq_zero]
      exact hz.sys.cont j (by omega) m h0 hm
  · -- a condition at the last knot
    obtain ⟨k, hk⟩ : ∃ k, e = nk1 * n + k := ⟨e - nk1 * n, by omega⟩
    obtain ⟨q, v, a1, a2, a3⟩ := H3 k (by omega) (by omega)
    rw [Nat.zero_add] at a2 a3
    have hqn : q < hi.length := (List.getElem?_eq_some_iff.1 a1).1
    refine Eq.trans ?_ (hz.hi0 q (hitem a1))
    rw [← sum_tail (n := n) (m := k + 1) (by omega) (by omega) (fun q' => ((q' + 1).choose (q + 1) : K))
      (fun q' hq' => by rw [Nat.choose_eq_zero_of_lt (by omega)]; simp) (fun q' => z ((x.length - 2) * n + q'))]
    refine sum_congr rfl fun r hr => ?_
    rw [mem_range] at hr
    rw [hk]
    by_cases hrk : k + 1 ≤ r
    · rw [if_pos ⟨by omega, by omega⟩, if_pos hrk]
      have e1 : nk1 * n + k - r = nk1 * n - n + k + (n - r) := by omega
      have e2 : nk1 * n + k - r = (x.length - 2) * n + (k + 1 + n - r - 1) := by
        rw [show x.length - 2 = jj by omega, hmul]; omega
      rw [L1 _ _ (by omega), ← e2]
      congr 1
      rw [e1, a3 r (by omega) (by omega)]
      congr 2 <;> omega
    · rw [if_neg (by omega), if_neg hrk]

/-- A polynomial that satisfies fewer than `d + 1` homogeneous conditions. -/
theorem exists_poly (x : List K) {L H : ℕ → Prop} [DecidablePred L] [DecidablePred H] {d : ℕ} (a b : K)
    (h : x.length + Nat.count L d + Nat.count H d ≤ d) : ∃ c : List K, c.length = d + 1 ∧ (∃ k, c.getD k 0 ≠ 0) ∧
      (∀ i < x.length, polyVal c (x.getD i 0 - a) = 0) ∧
      (∀ q < d, L q → taylorCoeff c (0 : K) (q + 1) = 0) ∧ (∀ q < d, H q → taylorCoeff c (b - a) (q + 1) = 0) := by
  letI := Nat.CountSet.fintype L d
  letI := Nat.CountSet.fintype H d
  let tc : K → ℕ → (Fin (d + 1) → K) →ₗ[K] K := fun t k =>
    { toFun := fun c => ∑ i, ((i.val.choose k : K) * t ^ (i.val - k)) * c i
      map_add' := by intro u v; simp [mul_add, sum_add_distrib]
      map_smul' := by
        intro r u
        simp only [Pi.smul_apply, smul_eq_mul, RingHom.id_apply, mul_sum]
        exact sum_congr rfl fun i _ => by ring }
  let F : (Fin (d + 1) → K) →ₗ[K] (Fin x.length ⊕ ({k // k < d ∧ L k} ⊕ {k // k < d ∧ H k}) → K) :=
    LinearMap.pi fun s => match s with
      | .inl i => tc (x.getD i 0 - a) 0
      | .inr (.inl q) => tc 0 (q.1 + 1)
      | .inr (.inr q) => tc (b - a) (q.1 + 1)
  have hF : LinearMap.ker F ≠ ⊥ := by
    apply LinearMap.ker_ne_bot_of_finrank_lt
    rw [Module.finrank_fintype_fun_eq_card, Module.finrank_fintype_fun_eq_card, Fintype.card_sum, Fintype.card_sum,
      Fintype.card_fin, Fintype.card_fin, ← Nat.count_eq_card_fintype, ← Nat.count_eq_card_fintype]
    omega
  obtain ⟨c, hc, hc0⟩ := Submodule.exists_mem_ne_zero_of_ne_bot hF
  have hlen : (List.ofFn c).length = d + 1 := List.length_ofFn
  have hget : ∀ i : Fin (d + 1), (List.ofFn c).getD i 0 = c i := by
    intro i
    rw [List.getD_eq_getElem _ _ (by rw [hlen]; exact i.2), List.getElem_ofFn]
  have htc : ∀ t k, taylorCoeff (List.ofFn c) t k = tc t k c := by
    intro t k
    unfold taylorCoeff
    rw [hlen, sum_range]
    exact sum_congr rfl fun i _ => by rw [hget]; rfl
  rw [LinearMap.mem_ker] at hc
  refine ⟨List.ofFn c, hlen, ?_, fun i hi => ?_, fun q hq hL => ?_, fun q hq hH => ?_⟩
  · by_contra h'
    apply hc0
    funext i
    rw [← hget]
    by_contra h0
    exact h' ⟨_, h0⟩
  · rw [← taylorCoeff_zero, htc]
    exact congrFun hc (.inl ⟨i, hi⟩)
  · rw [htc]
    exact congrFun hc (.inr (.inl ⟨q, hq, hL⟩))
  · rw [htc]
    exact congrFun hc (.inr (.inr ⟨q, hq, hH⟩))

/-- Such a polynomial is a solution of the homogeneous problem, which then has nonzero solutions. -/
theorem hom_nontrivial {n d : ℕ} {x : List K} (hx : 2 ≤ x.length) (hs : x.Pairwise (· < ·)) {lo hi : List (Option V)} (hlo : lo.length ≤ n - 1) (hd : d < n)
    (h : x.length + Nat.count (fun q => (bcItem lo q).isSome = true) d + Nat.count (fun q => (bcItem hi q).isSome = true) d ≤ d) :
    ∃ z, Hom n x lo hi z ∧ ∃ i < (x.length - 1) * n, z i ≠ 0 := by
  obtain ⟨c, hlen, ⟨k0, hk0⟩, h1, h2, h3⟩ := exists_poly x (x.getD 0 0) (x.getD (x.length - 1) 0) h
  have hn : 0 < n := by omega
  set t : ℕ → K := fun j => x.getD j 0 - x.getD 0 0 with ht
  have hw : ∀ j, t (j + 1) = t j + width x j := by intro j; simp only [ht, width]; ring
  set z : ℕ → K := fun i => taylorCoeff c (t (i / n)) (i % n + 1) * width x (i / n) ^ (i % n + 1) with hz
  have hzq : ∀ j q, q < n → z (j * n + q) = taylorCoeff c (t j) (q + 1) * width x j ^ (q + 1) := by
    intro j q hq
    simp only [hz]
    rw [Nat.mul_comm, Nat.mul_add_div hn, Nat.mul_add_mod, Nat.div_eq_of_lt hq, Nat.mod_eq_of_lt hq, Nat.add_zero]
  -- the right ends
  have hright : ∀ j m, 1 ≤ m → ∑ q ∈ range n, ((q + 1).choose m : K) • z (j * n + q) = width x j ^ m * taylorCoeff c (t (j + 1)) m := by
    intro j m hm
    have e := sum_taylor_taylor c (t j) (width x j) m (n + 1) (by omega)
    rw [sum_range_succ', Nat.choose_eq_zero_of_lt (by omega), Nat.cast_zero, zero_mul, zero_smul, add_zero, ← hw] at e
    rw [← e, mul_sum]
    refine sum_congr rfl fun q hq => ?_
    rw [mem_range] at hq
    rw [hzq j q hq, smul_eq_mul, smul_eq_mul]
    rcases Nat.lt_or_ge (q + 1) m with h4 | h4
    · rw [Nat.choose_eq_zero_of_lt h4]; simp
    · obtain ⟨r, hr⟩ : ∃ r, q + 1 = m + r := ⟨q + 1 - m, by omega⟩
      rw [hr, Nat.add_sub_cancel_left, pow_add]; ring
  refine ⟨z, ⟨⟨fun j hj => ?_, fun j hj m hm hmn => ?_⟩, fun q hq => ?_, fun q hq => ?_⟩, ?_⟩
  · have e := sum_taylor_taylor c (t j) (width x j) 0 (n + 1) (by omega)
    rw [sum_range_succ', ← hw, taylorCoeff_zero, taylorCoeff_zero, h1 _ (show j + 1 < x.length by omega), h1 _ (show j < x.length by omega)] at e
    simp only [List.getD_nil, sub_self]
    rw [← e, smul_zero, add_zero]
    refine sum_congr rfl fun q hq => ?_
    rw [mem_range] at hq
    rw [hzq j q hq, smul_eq_mul]; simp; ring
  · rw [hright j m hm, hzq _ _ (by omega), show m - 1 + 1 = m by omega, smul_eq_mul, div_pow]
    have := pow_ne_zero m (width_ne hs (show j + 1 + 1 < x.length by omega))
    field_simp
  · rcases Nat.lt_or_ge q n with hqn | hqn
    · have := hzq 0 q hqn
      rw [Nat.zero_mul, Nat.zero_add] at this
      rw [this]
      have h0 : taylorCoeff c (t 0) (q + 1) = 0 := by
        rcases Nat.lt_or_ge q d with h4 | h4
        · rw [show t 0 = 0 by simp [ht]]; exact h2 q h4 hq
        · exact taylorCoeff_eq_zero _ _ _ (by omega)
      rw [h0, zero_mul]
    · unfold bcItem at hq
      rw [List.getD_eq_default _ _ (by omega)] at hq
      simp at hq
  · rw [hright _ _ (by omega), show x.length - 2 + 1 = x.length - 1 by omega]
    have h0 : taylorCoeff c (t (x.length - 1)) (q + 1) = 0 := by
      rcases Nat.lt_or_ge q d with h4 | h4
      · exact h3 q h4 hq
      · exact taylorCoeff_eq_zero _ _ _ (by omega)
    rw [h0, mul_zero]
  · have hkd : k0 < d + 1 := by
      by_contra h'
      exact hk0 (List.getD_eq_default _ _ (by omega))
    have hc0 : c.getD 0 0 = 0 := by
      have := h1 0 (by omega)
      rw [sub_self, ← taylorCoeff_zero, taylorCoeff_at_zero] at this
      exact this
    have hk1 : k0 ≠ 0 := fun h => hk0 (by rw [h]; exact hc0)
    refine ⟨k0 - 1, ?_, ?_⟩
    · have := Nat.le_mul_of_pos_left n (show 0 < x.length - 1 by omega); omega
    · have := hzq 0 (k0 - 1) (by omega)
      rw [Nat.zero_mul, Nat.zero_add] at this
      rw [this, show k0 - 1 + 1 = k0 by omega, show t 0 = 0 by simp [ht], taylorCoeff_at_zero]
      exact mul_ne_zero hk0 (pow_ne_zero _ (width_ne hs (by omega)))

end Npplus.Spl
