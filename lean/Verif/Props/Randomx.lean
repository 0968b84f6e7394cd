import Verif.Model.Randomx
import Verif.Lemmas.Ravel
import Mathlib.LinearAlgebra.Matrix.Determinant.Basic
import Mathlib.Analysis.Real.Pi.Bounds

/-!
# C66–C69: randomx.py
-/

set_option linter.unusedSectionVars false
namespace Npplus
open Npplus.Randomx Npplus.Spec

/-- All that is known about the generator. -/
def ValidRng (rng : Rng) : Prop := ∀ k idx, 0 ≤ rng k idx ∧ rng k idx < 1

theorem set_snoc {α : Type} (s : List α) (x y : α) : (s ++ [x]).set s.length y = s ++ [y] := by
  induction s with
  | nil => rfl
  | cons a s ih => simp [ih]

theorem getD_snoc (s : List ℕ) (x : ℕ) : (s ++ [x]).getD s.length 0 = x := by
  rw [List.getD_append_right _ _ _ _ (le_refl _)]; simp

theorem validIdx_snoc (s idx : List ℕ) (d c : ℕ) : ValidIdx (s ++ [d]) (idx ++ [c]) ↔ ValidIdx s idx ∧ c < d := by
  induction s generalizing idx with
  | nil =>
    cases idx with
    | nil => simp [validIdx_cons, validIdx_nil]
    | cons i idx => simp [ValidIdx]
  | cons e s ih =>
    cases idx with
    | nil =>
      constructor
      · intro h; have := h.1; simp at this
      · intro h; have := h.1.1; simp at this
    | cons i idx => simp only [List.cons_append, validIdx_cons, ih, and_assoc]

theorem bcIdx_snoc {s idx : List ℕ} (h : ValidIdx s idx) (d c : ℕ) :
    bcIdx (s ++ [d]) (idx ++ [c]) = idx ++ [if d = 1 then 0 else c] := by
  have h1 := bcIdx_self h
  have hl := h.1
  unfold bcIdx at h1 ⊢
  rw [hl, Nat.sub_self, List.drop_zero] at h1
  rw [show (idx ++ [c]).length - (s ++ [d]).length = 0 by simp [hl], List.drop_zero,
    List.zipWith_append hl.symm, h1]
  simp

theorem common_snoc1 (s : List ℕ) (d : ℕ) : Common [s ++ [1], s ++ [d]] (s ++ [d]) := by
  refine ⟨by simp, ⟨s ++ [d], by simp, rfl⟩, ?_, fun k => ⟨s ++ [d], by simp, rfl⟩⟩
  intro t ht k
  simp only [List.mem_cons, List.not_mem_nil, or_false] at ht
  rcases ht with rfl | rfl
  · cases k with
    | zero => right; simp [rdim]
    | succ k => left; simp [rdim]
  · left; rfl

theorem common_snoc2 (s : List ℕ) (d : ℕ) : Common [s ++ [d], s ++ [1]] (s ++ [d]) :=
  (common_snoc1 s d).perm (List.Perm.swap _ _ _)

/-- `z * w` with `z` of shape `s + (1,)` and `w` of shape `s + (d,)`. -/
theorem zip_last {s : List ℕ} {d : ℕ} {f : ℝ → ℝ → ℝ} {z w : NdArr ℝ} (hz : z.shape = s ++ [1]) (hw : w.shape = s ++ [d]) :
    ∃ r, z.zip f w = .ok r ∧ r.shape = s ++ [d] ∧ ∀ idx c, ValidIdx s idx → c < d →
      r.get (idx ++ [c]) = f (z.get (idx ++ [0])) (w.get (idx ++ [c])) := by
  have hc : Common [z.shape, w.shape] (s ++ [d]) := by rw [hz, hw]; exact common_snoc1 s d
  have h := NdArr.zip_ok_of (f := f) hc
  refine ⟨_, h, rfl, ?_⟩
  intro idx c hidx hcd
  simp only [bget, hz, hw, bcIdx_snoc hidx, if_true]
  congr 3
  split_ifs with h1
  · congr 1; omega
  · rfl

theorem zip_last' {s : List ℕ} {d : ℕ} {f : ℝ → ℝ → ℝ} {z w : NdArr ℝ} (hz : z.shape = s ++ [1]) (hw : w.shape = s ++ [d]) :
    ∃ r, w.zip f z = .ok r ∧ r.shape = s ++ [d] ∧ ∀ idx c, ValidIdx s idx → c < d →
      r.get (idx ++ [c]) = f (w.get (idx ++ [c])) (z.get (idx ++ [0])) := by
  have hc : Common [w.shape, z.shape] (s ++ [d]) := by rw [hz, hw]; exact common_snoc2 s d
  have h := NdArr.zip_ok_of (f := f) hc
  refine ⟨_, h, rfl, ?_⟩
  intro idx c hidx hcd
  simp only [bget, hz, hw, bcIdx_snoc hidx, if_true]
  congr 3
  split_ifs with h1
  · congr 1; omega
  · rfl

theorem catLast_spec {s : List ℕ} {d e : ℕ} {a b : NdArr ℝ} (ha : a.shape = s ++ [d]) (hb : b.shape = s ++ [e]) :
    (catLast s.length a b).shape = s ++ [d + e] ∧ ∀ idx c, ValidIdx s idx →
      (catLast s.length a b).get (idx ++ [c]) = if c < d then a.get (idx ++ [c]) else b.get (idx ++ [c - d]) := by
  constructor
  · simp [catLast, NdArr.concatAx, ha, hb]
  · intro idx c hidx
    simp only [catLast, NdArr.concatAx, ha, getD_snoc]
    rw [← hidx.1, getD_snoc, set_snoc]

/-! ### the rejection loop -/

theorem reject_spec {rng : Rng} {dim : ℕ} {fac : ℝ} : ∀ (fuel k : ℕ) (nmore : ℤ) (p r : List (List ℝ)),
    reject rng dim fac fuel k nmore p = some r →
    (∀ x ∈ p, x.length = dim ∧ (x.map fun t => t * t).sum < 1) →
    (nmore + p.length ≤ r.length ∨ nmore ≤ 0 ∧ r = p) ∧ ∀ x ∈ r, x.length = dim ∧ (x.map fun t => t * t).sum < 1
  | 0, k, nmore, p, r, h, hp => by
    unfold reject at h
    split_ifs at h with h0
    cases h
    exact ⟨.inr ⟨by omega, rfl⟩, hp⟩
  | fuel + 1, k, nmore, p, r, h, hp => by
    unfold reject at h
    split_ifs at h with h0
    · obtain ⟨h1, h2⟩ := reject_spec fuel _ _ _ _ h (by
        intro x hx
        rw [List.mem_append] at hx
        rcases hx with hx | hx
        · exact hp x hx
        · rw [List.mem_filter] at hx
          refine ⟨?_, of_decide_eq_true hx.2⟩
          obtain ⟨i, _, rfl⟩ := List.mem_map.1 hx.1
          simp)
      refine ⟨.inl ?_, h2⟩
      rcases h1 with h1 | ⟨h1, rfl⟩
      · rw [List.length_append] at h1; push_cast at h1; omega
      · rw [List.length_append]; push_cast; omega
    · cases h
      exact ⟨.inr ⟨by omega, rfl⟩, hp⟩

theorem flatten_getD : ∀ (rows : List (List ℝ)) (dim i c : ℕ), (∀ x ∈ rows, x.length = dim) → i < rows.length → c < dim →
    rows.flatten.getD (i * dim + c) 0 = (rows.getD i []).getD c 0
  | [], dim, i, c, _, hi, _ => by simp at hi
  | x :: rows, dim, 0, c, hx, _, hc => by
    rw [List.flatten_cons, Nat.zero_mul, Nat.zero_add, List.getD_append _ _ _ _ (by rw [hx x (by simp)]; exact hc)]
    rfl
  | x :: rows, dim, i + 1, c, hx, hi, hc => by
    have hxl := hx x (by simp)
    rw [List.flatten_cons, List.getD_append_right _ _ _ _ (by rw [hxl]; nlinarith), hxl,
      show (i + 1) * dim + c - dim = i * dim + c by rw [Nat.succ_mul]; omega,
      flatten_getD rows dim i c (fun y hy => hx y (by simp [hy])) (by simpa using hi) hc]
    rfl

theorem rowsReshape_spec {dim : ℕ} {size : List ℕ} {rows : List (List ℝ)} (hr : ∀ x ∈ rows, x.length = dim)
    (hl : size.prod ≤ rows.length) : (rowsReshape dim size rows).shape = size ++ [dim] ∧
    ∀ idx, ValidIdx size idx → ∃ x ∈ rows, ∀ c < dim, (rowsReshape dim size rows).get (idx ++ [c]) = x.getD c 0 := by
  refine ⟨rfl, fun idx hidx => ?_⟩
  obtain ⟨h1, _⟩ := ravelIdx_spec _ _ hidx
  refine ⟨rows.getD (ravelIdx size idx) [], ?_, fun c hc => ?_⟩
  · rw [List.getD_eq_getElem _ _ (by omega)]; exact List.getElem_mem _
  · simp only [rowsReshape, NdArr.ofList]
    rw [ravelIdx_append _ _ _ _ hidx.1.symm,
      flatten_getD _ dim _ c (fun x hx => hr x (List.mem_of_mem_take hx)) (by rw [List.length_take]; omega) hc,
      List.getD_eq_getElem (List.take _ rows) _ (by rw [List.length_take]; omega),
      List.getD_eq_getElem rows _ (show ravelIdx size idx < rows.length by omega), List.getElem_take]

theorem reject_returns {rng : Rng} {dim : ℕ} {fac : ℝ} (hfac : 1 ≤ fac)
    (hacc : ∀ k m, 0 < m → ∃ i < m, ((List.range dim).map fun j => (2 * rng k [i, j] - 1) * (2 * rng k [i, j] - 1)).sum < 1) :
    ∀ (fuel k : ℕ) (nmore : ℤ) (p : List (List ℝ)), nmore ≤ fuel → ∃ r, reject rng dim fac fuel k nmore p = some r
  | 0, k, nmore, p, h => by
    unfold reject
    rw [if_neg (by push_cast at h; omega)]
    exact ⟨p, rfl⟩
  | fuel + 1, k, nmore, p, h => by
    unfold reject
    split_ifs with h0
    · simp only
      apply reject_returns hfac hacc
      have h1 : (1 : ℝ) ≤ nmore := by exact_mod_cast h0
      have hm : 0 < ⌊((nmore : ℝ) + 5 * Real.sqrt nmore) * fac⌋₊ := by
        rw [Nat.floor_pos]
        have := Real.sqrt_nonneg (nmore : ℝ)
        nlinarith
      obtain ⟨i, hi, hsum⟩ := hacc k _ hm
      have hmem : ((List.range dim).map fun j => 2 * rng k [i, j] - 1) ∈ ((List.range ⌊((nmore : ℝ) + 5 * Real.sqrt nmore) * fac⌋₊).map
          fun i => (List.range dim).map fun j => 2 * (random rng k [⌊((nmore : ℝ) + 5 * Real.sqrt nmore) * fac⌋₊, dim]).get [i, j] - 1).filter
          fun x => decide ((x.map fun t => t * t).sum < 1) := by
        rw [List.mem_filter]
        refine ⟨List.mem_map.2 ⟨i, List.mem_range.2 hi, rfl⟩, ?_⟩
        rw [List.map_map]
        exact decide_eq_true hsum
      have := List.length_pos_of_mem hmem
      push_cast at h
      omega
    · exact ⟨p, rfl⟩

/-! ### C66 -/

/-- **C66**. For every outcome of the generator and every `size`, what `incircle` returns has shape `size + (2,)` and
every point lies strictly inside the unit circle — in both algorithms. -/
theorem C66_incircle (rng : Rng) (hrng : ValidRng rng) (size : Size) (fuel : ℕ) (r : Except PyErr (NdArr ℝ))
    (h : incircle rng size fuel = some r) :
    ∃ a, r = .ok a ∧ a.shape = size.toTuple ++ [2] ∧
      ∀ idx, ValidIdx size.toTuple idx → a.get (idx ++ [0]) ^ 2 + a.get (idx ++ [1]) ^ 2 < 1 := by
  unfold incircle at h
  simp only at h
  split_ifs at h with hn
  · set s := size.toTuple
    obtain ⟨w1, w2⟩ := catLast_spec (s := s) (d := 1) (e := 1)
      (a := ((unpack 0 (random rng 0 (2 :: (s ++ [1])))).map fun t => t * (2 * Real.pi)).map Real.cos)
      (b := ((unpack 0 (random rng 0 (2 :: (s ++ [1])))).map fun t => t * (2 * Real.pi)).map Real.sin) rfl rfl
    obtain ⟨a, e1, e2, e3⟩ := zip_last (s := s) (d := 2) (f := (· * ·))
      (z := (unpack 1 (random rng 0 (2 :: (s ++ [1])))).map Real.sqrt) rfl w1
    rw [e1] at h
    cases h
    refine ⟨a, rfl, e2, fun idx hidx => ?_⟩
    rw [e3 idx 0 hidx (by omega), e3 idx 1 hidx (by omega), w2 idx 0 hidx, w2 idx 1 hidx, if_pos (by omega), if_neg (by omega)]
    simp only [NdArr.map, unpack, random, Nat.sub_self]
    obtain ⟨z0, z1⟩ := hrng 0 (1 :: (idx ++ [0]))
    have := Real.sq_sqrt z0
    have := Real.sin_sq_add_cos_sq (rng 0 (0 :: (idx ++ [0])) * (2 * Real.pi))
    nlinarith
  · rw [Option.map_eq_some_iff] at h
    obtain ⟨p, hp, rfl⟩ := h
    obtain ⟨h1, h2⟩ := reject_spec _ _ _ _ _ hp (by simp)
    have hlen : size.toTuple.prod ≤ p.length := by
      rcases h1 with h1 | ⟨h1, _⟩
      · simp only [List.length_nil, Nat.cast_zero, add_zero] at h1; exact Int.ofNat_le.1 h1
      · exact absurd (Int.ofNat_le.1 h1) (by omega)
    obtain ⟨w1, w2⟩ := rowsReshape_spec (dim := 2) (size := size.toTuple) (rows := p) (fun x hx => (h2 x hx).1) hlen
    refine ⟨_, rfl, w1, fun idx hidx => ?_⟩
    obtain ⟨x, hx, hc⟩ := w2 idx hidx
    obtain ⟨l1, l2⟩ := h2 x hx
    rw [hc 0 (by omega), hc 1 (by omega)]
    rcases x with _ | ⟨a, _ | ⟨b, _ | ⟨c, x⟩⟩⟩ <;> simp at l1
    simp at l2
    simp only [List.getD_cons_zero, List.getD_cons_succ]
    nlinarith

/-- **C66** (it returns): the small branch always; the rejection branch after at most `prod(size)` passes when each
pass accepts at least one point. -/
theorem C66_returns (rng : Rng) (size : Size)
    (hacc : ∀ k m, 0 < m → ∃ i < m, (2 * rng k [i, 0] - 1) ^ 2 + (2 * rng k [i, 1] - 1) ^ 2 < 1) :
    ∃ r, incircle rng size size.toTuple.prod = some r := by
  unfold incircle
  simp only
  split_ifs with hn
  · exact ⟨_, rfl⟩
  · obtain ⟨p, hp⟩ := reject_returns (rng := rng) (dim := 2) (fac := 4 / Real.pi)
      (by rw [le_div_iff₀ Real.pi_pos]; linarith [Real.pi_le_four])
      (fun k m hm => by
        obtain ⟨i, hi, h⟩ := hacc k m hm
        refine ⟨i, hi, ?_⟩
        simp [List.range_succ]
        nlinarith) size.toTuple.prod 0 size.toTuple.prod [] (le_refl _)
    exact ⟨_, by rw [hp]; rfl⟩

/-- The constant generator 1/2 meets the hypotheses of both. -/
example : ValidRng (fun _ _ => 1/2) ∧
    ∀ k m : ℕ, 0 < m → ∃ i < m, (2 * (fun (_ : ℕ) (_ : List ℕ) => (1/2 : ℝ)) k [i, 0] - 1) ^ 2 + (2 * (1/2 : ℝ) - 1) ^ 2 < 1 := by
  refine ⟨fun _ _ => by norm_num, fun k m hm => ⟨0, hm, by norm_num⟩⟩

/-! ### C67 -/

theorem insphere_small (rng : Rng) (s : List ℕ) (fuel : ℕ) (size : Size) (hs : size.toTuple = s) (hn : s.prod < 70) :
    ∃ a, insphere rng size fuel = some (.ok a) ∧ a.shape = s ++ [3] ∧
      ∀ idx, ValidIdx s idx → 
        let mu := 2 * rng 0 (0 :: (idx ++ [0])) - 1
        let phi := rng 0 (1 :: (idx ++ [0])) * (2 * Real.pi)
        let c := rng 0 (2 :: (idx ++ [0])) ^ (1 / 3 : ℝ)
        a.get (idx ++ [0]) = c * (Real.sqrt (1 - mu) * Real.cos phi) ∧
        a.get (idx ++ [1]) = c * (Real.sqrt (1 - mu) * Real.sin phi) ∧
        a.get (idx ++ [2]) = c * mu := by
  unfold insphere
  simp only [hs, if_pos hn]
  obtain ⟨a1, e1, e2, e3⟩ := zip_last (s := s) (d := 1) (f := (· * ·))
      (z := ((unpack 0 (random rng 0 (3 :: (s ++ [1])))).map fun mu => 2 * mu - 1).map fun mu => Real.sqrt (1 - mu))
      (w := ((unpack 1 (random rng 0 (3 :: (s ++ [1])))).map fun t => t * (2 * Real.pi)).map Real.cos) rfl rfl
  obtain ⟨a2, f1, f2, f3⟩ := zip_last (s := s) (d := 1) (f := (· * ·))
      (z := ((unpack 0 (random rng 0 (3 :: (s ++ [1])))).map fun mu => 2 * mu - 1).map fun mu => Real.sqrt (1 - mu))
      (w := ((unpack 1 (random rng 0 (3 :: (s ++ [1])))).map fun t => t * (2 * Real.pi)).map Real.sin) rfl rfl
  obtain ⟨w1, w2⟩ := catLast_spec e2 f2
  obtain ⟨v1, v2⟩ := catLast_spec (b := (unpack 0 (random rng 0 (3 :: (s ++ [1])))).map fun mu => 2 * mu - 1) (e := 1) w1 rfl
  obtain ⟨a, g1, g2, g3⟩ := zip_last (s := s) (d := 3) (f := (· * ·))
      (z := (unpack 2 (random rng 0 (3 :: (s ++ [1])))).map fun z => z ^ (1 / 3 : ℝ)) rfl v1
  rw [e1, f1]
  refine ⟨a, by simp only [bind, Except.bind]; rw [g1], g2, fun idx hidx => ?_⟩
  rw [g3 idx 0 hidx (by omega), g3 idx 1 hidx (by omega), g3 idx 2 hidx (by omega), v2 idx 0 hidx, v2 idx 1 hidx, v2 idx 2 hidx,
    if_pos (by omega), if_pos (by omega), if_neg (by omega), w2 idx 0 hidx, w2 idx 1 hidx, if_pos (by omega), if_neg (by omega),
    e3 idx 0 hidx (by omega), f3 idx 0 hidx (by omega)]
  exact ⟨rfl, rfl, rfl⟩

/-- **C67** (partial). For every outcome of the generator and every `size`, what `insphere` returns has shape
`size + (3,)`; with at least 70 points (the rejection method) all are strictly inside the unit sphere; with fewer the
squared norm is `z^(2/3)·(1 - mu + mu²)`, which is only bounded by 3 (`C67_small_refuted`), but < 1 when `mu ≥ 0`. -/
theorem C67_insphere_partial (rng : Rng) (hrng : ValidRng rng) (size : Size) (fuel : ℕ) (r : Except PyErr (NdArr ℝ))
    (h : insphere rng size fuel = some r) :
    ∃ a, r = .ok a ∧ a.shape = size.toTuple ++ [3] ∧
      ∀ idx, ValidIdx size.toTuple idx →
        (70 ≤ size.toTuple.prod ∨ 1 / 2 ≤ rng 0 (0 :: (idx ++ [0])) →
          a.get (idx ++ [0]) ^ 2 + a.get (idx ++ [1]) ^ 2 + a.get (idx ++ [2]) ^ 2 < 1) ∧
        a.get (idx ++ [0]) ^ 2 + a.get (idx ++ [1]) ^ 2 + a.get (idx ++ [2]) ^ 2 < 3 := by
  by_cases hn : size.toTuple.prod < 70
  · obtain ⟨a, h1, h2, h3⟩ := insphere_small rng _ fuel size rfl hn
    rw [h1] at h
    cases h
    refine ⟨a, rfl, h2, fun idx hidx => ?_⟩
    obtain ⟨e0, e1, e2⟩ := h3 idx hidx
    rw [e0, e1, e2]
    obtain ⟨m0, m1⟩ := hrng 0 (0 :: (idx ++ [0]))
    obtain ⟨z0, z1⟩ := hrng 0 (2 :: (idx ++ [0]))
    set u := rng 0 (0 :: (idx ++ [0]))
    set c := rng 0 (2 :: (idx ++ [0])) ^ (1 / 3 : ℝ)
    set phi := rng 0 (1 :: (idx ++ [0])) * (2 * Real.pi)
    have hc0 : 0 ≤ c := Real.rpow_nonneg z0 _
    have hc1 : c < 1 := Real.rpow_lt_one z0 z1 (by norm_num)
    have hsq := Real.sq_sqrt (show (0 : ℝ) ≤ 1 - (2 * u - 1) by linarith)
    have hcs := Real.sin_sq_add_cos_sq phi
    have hnorm : (c * (Real.sqrt (1 - (2 * u - 1)) * Real.cos phi)) ^ 2 + (c * (Real.sqrt (1 - (2 * u - 1)) * Real.sin phi)) ^ 2 +
        (c * (2 * u - 1)) ^ 2 = c ^ 2 * (1 - (2 * u - 1) + (2 * u - 1) ^ 2) := by
      calc _ = c ^ 2 * (Real.sqrt (1 - (2 * u - 1)) ^ 2 * (Real.sin phi ^ 2 + Real.cos phi ^ 2) + (2 * u - 1) ^ 2) := by ring
        _ = _ := by rw [hsq, hcs]; ring
    rw [hnorm]
    have hc2 : c ^ 2 < 1 := by nlinarith
    have hc2' : 0 ≤ c ^ 2 := by positivity
    constructor
    · rintro (h70 | hu)
      · omega
      · have : 1 - (2 * u - 1) + (2 * u - 1) ^ 2 ≤ 1 := by nlinarith
        nlinarith
    · have h3 : 1 - (2 * u - 1) + (2 * u - 1) ^ 2 ≤ 3 := by nlinarith
      have : 0 ≤ 1 - (2 * u - 1) + (2 * u - 1) ^ 2 := by nlinarith
      nlinarith
  · unfold insphere at h
    simp only [if_neg hn] at h
    rw [Option.map_eq_some_iff] at h
    obtain ⟨p, hp, rfl⟩ := h
    obtain ⟨h1, h2⟩ := reject_spec _ _ _ _ _ hp (by simp)
    have hlen : size.toTuple.prod ≤ p.length := by
      rcases h1 with h1 | ⟨h1, _⟩
      · simp only [List.length_nil, Nat.cast_zero, add_zero] at h1; exact Int.ofNat_le.1 h1
      · exact absurd (Int.ofNat_le.1 h1) (by omega)
    obtain ⟨w1, w2⟩ := rowsReshape_spec (dim := 3) (size := size.toTuple) (rows := p) (fun x hx => (h2 x hx).1) hlen
    refine ⟨_, rfl, w1, fun idx hidx => ?_⟩
    have key : (rowsReshape 3 size.toTuple p).get (idx ++ [0]) ^ 2 + (rowsReshape 3 size.toTuple p).get (idx ++ [1]) ^ 2 +
        (rowsReshape 3 size.toTuple p).get (idx ++ [2]) ^ 2 < 1 := by
      obtain ⟨x, hx, hc⟩ := w2 idx hidx
      obtain ⟨l1, l2⟩ := h2 x hx
      rw [hc 0 (by omega), hc 1 (by omega), hc 2 (by omega)]
      rcases x with _ | ⟨a, _ | ⟨b, _ | ⟨c, _ | ⟨d, x⟩⟩⟩⟩ <;> simp at l1
      simp at l2
      simp only [List.getD_cons_zero, List.getD_cons_succ]
      nlinarith
    exact ⟨fun _ => key, by linarith⟩

/-- **C67 refuted** for fewer than 70 points: for every such size there are generator outcomes for which *every* point
lies outside the unit sphere. -/
theorem C67_small_refuted (size : Size) (hn : size.toTuple.prod < 70) (fuel : ℕ) :
    ∃ rng, ValidRng rng ∧ ∃ a, insphere rng size fuel = some (.ok a) ∧ ∀ idx, ValidIdx size.toTuple idx →
      1 < a.get (idx ++ [0]) ^ 2 + a.get (idx ++ [1]) ^ 2 + a.get (idx ++ [2]) ^ 2 := by
  refine ⟨fun _ idx => if idx.getD 0 0 = 2 then 27 / 64 else 0, fun _ idx => by dsimp only; split_ifs <;> norm_num, ?_⟩
  obtain ⟨a, h1, _, h3⟩ := insphere_small (fun _ idx => if idx.getD 0 0 = 2 then 27 / 64 else 0) _ fuel size rfl hn
  refine ⟨a, h1, fun idx hidx => ?_⟩
  obtain ⟨e0, e1, e2⟩ := h3 idx hidx
  rw [e0, e1, e2]
  simp only [List.getD_cons_zero]
  have hc : ((27 : ℝ) / 64) ^ (1 / 3 : ℝ) = 3 / 4 := by
    rw [show (27 : ℝ) / 64 = (3 / 4) ^ (3 : ℝ) by norm_num, ← Real.rpow_mul (by norm_num)]
    norm_num
  have h2 : (Real.sqrt 2) ^ 2 = 2 := Real.sq_sqrt (by norm_num)
  norm_num [hc]
  nlinarith

/-- **C67** (it returns). -/
theorem C67_returns (rng : Rng) (size : Size)
    (hacc : ∀ k m, 0 < m → ∃ i < m, (2 * rng k [i, 0] - 1) ^ 2 + (2 * rng k [i, 1] - 1) ^ 2 + (2 * rng k [i, 2] - 1) ^ 2 < 1) :
    ∃ r, insphere rng size size.toTuple.prod = some r := by
  unfold insphere
  simp only
  split_ifs with hn
  · exact ⟨_, rfl⟩
  · obtain ⟨p, hp⟩ := reject_returns (rng := rng) (dim := 3) (fac := 6 / Real.pi)
      (by rw [le_div_iff₀ Real.pi_pos]; linarith [Real.pi_le_four])
      (fun k m hm => by
        obtain ⟨i, hi, h⟩ := hacc k m hm
        refine ⟨i, hi, ?_⟩
        simp [List.range_succ]
        nlinarith) size.toTuple.prod 0 size.toTuple.prod [] (le_refl _)
    exact ⟨_, by rw [hp]; rfl⟩

/-! ### C68 -/

/-- **C68**: `oncircle` points have the shape `size + (2,)` and norm exactly 1. -/
theorem C68_oncircle (rng : Rng) (k : ℕ) (size : Size) :
    (oncircle rng k size).shape = size.toTuple ++ [2] ∧ ∀ idx, ValidIdx size.toTuple idx →
      (oncircle rng k size).get (idx ++ [0]) ^ 2 + (oncircle rng k size).get (idx ++ [1]) ^ 2 = 1 := by
  obtain ⟨w1, w2⟩ := catLast_spec (s := size.toTuple) (d := 1) (e := 1)
    (a := ((random rng k (size.toTuple ++ [1])).map fun t => 2 * Real.pi * t).map Real.cos)
    (b := ((random rng k (size.toTuple ++ [1])).map fun t => 2 * Real.pi * t).map Real.sin) rfl rfl
  refine ⟨w1, fun idx hidx => ?_⟩
  have h0 := w2 idx 0 hidx
  have h1 := w2 idx 1 hidx
  rw [if_pos (by omega)] at h0
  rw [if_neg (by omega)] at h1
  show (catLast _ _ _).get _ ^ 2 + (catLast _ _ _).get _ ^ 2 = 1
  rw [h0, h1]
  exact Real.cos_sq_add_sin_sq _

/-- **C68**: `onsphere` points have the shape `size + (3,)` and norm exactly 1. -/
theorem C68_onsphere (rng : Rng) (hrng : ValidRng rng) (size : Size) :
    ∃ a, onsphere rng size = .ok a ∧ a.shape = size.toTuple ++ [3] ∧ ∀ idx, ValidIdx size.toTuple idx →
      a.get (idx ++ [0]) ^ 2 + a.get (idx ++ [1]) ^ 2 + a.get (idx ++ [2]) ^ 2 = 1 := by
  obtain ⟨c1, c2⟩ := C68_oncircle rng 0 size
  obtain ⟨xy, e1, e2, e3⟩ := zip_last' (s := size.toTuple) (d := 2) (f := (· * ·)) (w := oncircle rng 0 size)
    (z := ((random rng 1 ((oncircle rng 0 size).shape.dropLast ++ [1])).map fun z => 2 * z - 1).map fun z => Real.sqrt (1 - z * z))
    (by simp [NdArr.map, random, c1]) c1
  obtain ⟨w1, w2⟩ := catLast_spec (b := (random rng 1 ((oncircle rng 0 size).shape.dropLast ++ [1])).map fun z => 2 * z - 1)
    (e := 1) e2 (by simp [NdArr.map, random, c1])
  refine ⟨_, ?_, w1, fun idx hidx => ?_⟩
  · unfold onsphere
    simp only [bind, Except.bind, e1]
    rfl
  · rw [w2 idx 0 hidx, w2 idx 1 hidx, w2 idx 2 hidx, if_pos (by omega), if_pos (by omega), if_neg (by omega),
      e3 idx 0 hidx (by omega), e3 idx 1 hidx (by omega)]
    simp only [NdArr.map, random]
    have hc := c2 idx hidx
    obtain ⟨m0, m1⟩ := hrng 1 (idx ++ [0])
    have hz : (0 : ℝ) ≤ 1 - (2 * rng 1 (idx ++ [0]) - 1) * (2 * rng 1 (idx ++ [0]) - 1) := by nlinarith
    have hsq := Real.sq_sqrt hz
    rw [mul_pow, mul_pow, ← add_mul, hc, hsq]
    ring

example : ValidRng (fun k _ => 1 / (k + 2)) := fun k _ => by
  refine ⟨by positivity, ?_⟩
  rw [div_lt_one (by positivity)]; linarith [(Nat.cast_nonneg k : (0 : ℝ) ≤ k)]

/-! ### C69 -/

/-- The matrix of `rotation3` at the leading index `idx`. -/
noncomputable def rotAt (rng : Rng) (size : Size) (idx : List ℕ) : Matrix (Fin 3) (Fin 3) ℝ :=
  fun i j => (rotation3 rng size).get (idx ++ [(i : ℕ), (j : ℕ)])

theorem rotAt_eq (rng : Rng) (size : Size) (idx : List ℕ) (hidx : ValidIdx size.toTuple idx) :
    let theta := 2 * rng 0 (0 :: 0 :: idx) * Real.pi
    let phi := 2 * rng 0 (1 :: 0 :: idx) * Real.pi
    let z := 2 * rng 0 (2 :: 0 :: idx)
    let x := Real.sqrt z * Real.sin phi
    let y := Real.sqrt z * Real.cos phi
    let w := Real.sqrt (2 - z)
    let st := Real.sin theta
    let ct := Real.cos theta
    rotAt rng size idx = !![x * (x * ct - y * st) - ct, x * (x * st + y * ct) - st, x * w;
      y * (x * ct - y * st) + st, y * (x * st + y * ct) - ct, y * w;
      w * (x * ct - y * st), w * (x * st + y * ct), 1 - z] := by
  intro theta phi z x y w st ct
  have hl := hidx.1
  have ht : ∀ a b : ℕ, (idx ++ [a, b]).take size.toTuple.length = idx := by
    intro a b; rw [← hl, List.take_left']; rfl
  have h1 : ∀ a b : ℕ, (idx ++ [a, b]).getD size.toTuple.length 0 = a := by
    intro a b; rw [List.getD_append_right _ _ _ _ hl.le, hl]; simp
  have h2 : ∀ a b : ℕ, (idx ++ [a, b]).getD (size.toTuple.length + 1) 0 = b := by
    intro a b; rw [List.getD_append_right _ _ _ _ (by omega), ← hl]; simp
  ext i j
  unfold rotAt rotation3
  simp only [ht, h1, h2]
  fin_cases i <;> fin_cases j <;> simp [NdArr.map, random, x, y, w, st, ct, theta, phi, z] <;> ring

/-- **C69**. For every outcome of the generator and every `size`, `rotation3(size)` has shape `size + (3, 3)`, and every
one of its matrices is orthogonal with determinant +1. -/
theorem C69_rotation3 (rng : Rng) (hrng : ValidRng rng) (size : Size) :
    (rotation3 rng size).shape = size.toTuple ++ [3, 3] ∧ ∀ idx, ValidIdx size.toTuple idx →
      (rotAt rng size idx).transpose * rotAt rng size idx = 1 ∧ (rotAt rng size idx).det = 1 := by
  refine ⟨rfl, fun idx hidx => ?_⟩
  have hm := rotAt_eq rng size idx hidx
  simp only at hm
  obtain ⟨z0, z1⟩ := hrng 0 (2 :: 0 :: idx)
  set z := 2 * rng 0 (2 :: 0 :: idx) with hz
  set phi := 2 * rng 0 (1 :: 0 :: idx) * Real.pi
  set theta := 2 * rng 0 (0 :: 0 :: idx) * Real.pi
  have hcs := Real.sin_sq_add_cos_sq theta
  have hphi := Real.sin_sq_add_cos_sq phi
  have hw := Real.sq_sqrt (show (0 : ℝ) ≤ 2 - z by linarith)
  have hr := Real.sq_sqrt (show (0 : ℝ) ≤ z by linarith)
  have hxy : (Real.sqrt z * Real.sin phi) ^ 2 + (Real.sqrt z * Real.cos phi) ^ 2 = z := by
    rw [mul_pow, mul_pow, ← mul_add, hr, hphi, mul_one]
  have hz1 : 1 - z = Real.sqrt (2 - z) ^ 2 - 1 := by rw [hw]; ring
  generalize Real.sqrt z * Real.sin phi = x at *
  generalize Real.sqrt z * Real.cos phi = y at *
  generalize Real.sqrt (2 - z) = w at *
  generalize Real.sin theta = st at *
  generalize Real.cos theta = ct at *
  have hv : x ^ 2 + y ^ 2 + w ^ 2 = 2 := by rw [hxy, hw]; ring
  rw [hz1] at hm
  let H : Matrix (Fin 3) (Fin 3) ℝ := !![x * x - 1, x * y, x * w; y * x, y * y - 1, y * w; w * x, w * y, w * w - 1]
  let R : Matrix (Fin 3) (Fin 3) ℝ := !![ct, st, 0; -st, ct, 0; 0, 0, 1]
  have hHR : rotAt rng size idx = H * R := by
    rw [hm]
    ext i j
    fin_cases i <;> fin_cases j <;> simp [H, R, Matrix.mul_apply, Fin.sum_univ_three] <;> ring
  have hR : R.transpose * R = 1 := by
    ext i j
    fin_cases i <;> fin_cases j <;> simp [R, Matrix.mul_apply, Fin.sum_univ_three] <;>
      first | linear_combination hcs | (ring; done)
  have hRd : R.det = 1 := by
    simp [R, Matrix.det_fin_three]; linear_combination hcs
  have hH : H.transpose * H = 1 := by
    ext i j
    fin_cases i <;> fin_cases j <;> simp [H, Matrix.mul_apply, Fin.sum_univ_three]
    · linear_combination (x * x) * hv
    · linear_combination (x * y) * hv
    · linear_combination (x * w) * hv
    · linear_combination (x * y) * hv
    · linear_combination (y * y) * hv
    · linear_combination (y * w) * hv
    · linear_combination (x * w) * hv
    · linear_combination (y * w) * hv
    · linear_combination (w * w) * hv
  have hHd : H.det = 1 := by
    simp [H, Matrix.det_fin_three]; linear_combination hv
  rw [hHR]
  constructor
  · rw [Matrix.transpose_mul, Matrix.mul_assoc, ← Matrix.mul_assoc H.transpose, hH, Matrix.one_mul, hR]
  · rw [Matrix.det_mul, hHd, hRd, one_mul]

example : (rotation3 (fun _ _ => 1/2) (.tuple [4, 5])).shape = [4, 5, 3, 3] := rfl

end Npplus
