import Verif.Props.BasicSpan

/-!
# C59, C60, C62: `cat_`, `a_`, `abs_`
-/

set_option linter.unusedSectionVars false

namespace Npplus
open Spec Basic Finset

variable {K : Type}

theorem padShape_length {nd : ℕ} {s : List ℕ} (h : s.length ≤ nd) : (padShape nd s).length = nd := by
  unfold padShape; simp; omega

theorem rdim_padShape {nd : ℕ} {s : List ℕ} (j : ℕ) : rdim (padShape nd s) j = rdim s j := by
  unfold rdim padShape
  rw [List.reverse_append, List.reverse_replicate]
  rcases Nat.lt_or_ge j s.reverse.length with h | h
  · rw [List.getD_append _ _ _ _ h]
  · rw [List.getD_append_right _ _ _ _ h, List.getD_eq_default _ _ h]
    rcases Nat.lt_or_ge (j - s.reverse.length) (nd - s.length) with h' | h'
    · rw [List.getD_eq_getElem _ _ (by simpa using h')]; simp
    · rw [List.getD_eq_default _ _ (by simpa using h')]

theorem rdim_set {s : List ℕ} {k v j : ℕ} (hk : k < s.length) :
    rdim (s.set k v) j = if j = s.length - 1 - k then v else rdim s j := by
  rcases Nat.lt_or_ge j s.length with h | h
  · rw [rdim_of_lt (by simpa using h), List.length_set]
    split
    next he => rw [show s.length - 1 - j = k by omega, getD_set_self hk]
    next he => rw [getD_set_ne (by omega), rdim_of_lt h]
  · rw [rdim_of_ge (by simpa using h), if_neg (by omega), rdim_of_ge h]

theorem canAssign_iff {s t : List ℕ} : canAssign s t = true ↔
    s.length ≤ t.length ∧ ∀ j, rdim s j = rdim t j ∨ rdim s j = 1 := by
  unfold canAssign
  simp only [Bool.and_eq_true, decide_eq_true_eq, List.all_eq_true, List.mem_range, Bool.or_eq_true, beq_iff_eq]
  constructor
  · rintro ⟨h1, h2⟩
    refine ⟨h1, fun j => ?_⟩
    rcases Nat.lt_or_ge j t.length with h | h
    · exact h2 j h
    · exact .inr (rdim_of_ge (by omega))
  · rintro ⟨h1, h2⟩
    exact ⟨h1, fun j _ => h2 j⟩

/-- The maximum of a table of shapes. -/
theorem maxShape_spec {nd : ℕ} {l : List (List ℕ)} (hne : l ≠ []) (hl : ∀ s ∈ l, s.length = nd) :
    (maxShape l).length = nd ∧ ∀ j < nd, (∀ s ∈ l, s.getD j 0 ≤ (maxShape l).getD j 0) ∧ ∃ s ∈ l, s.getD j 0 = (maxShape l).getD j 0 := by
  obtain ⟨a, l, rfl⟩ := List.exists_cons_of_ne_nil hne
  unfold maxShape
  clear hne
  induction l generalizing a with
  | nil =>
    refine ⟨hl a (by simp), fun j hj => ⟨by simp, a, by simp, rfl⟩⟩
  | cons b l ih =>
    have ha := hl a (by simp)
    have hb := hl b (by simp)
    have hz : (List.zipWith max a b).length = nd := by simp; omega
    have hzg : ∀ j < nd, (List.zipWith max a b).getD j 0 = max (a.getD j 0) (b.getD j 0) := by
      intro j hj
      rw [List.getD_eq_getElem _ _ (by omega), List.getD_eq_getElem _ _ (by omega), List.getD_eq_getElem _ _ (by omega)]
      simp
    obtain ⟨i1, i2⟩ := ih (List.zipWith max a b) (fun s hs => by
      rcases List.mem_cons.mp hs with rfl | hs
      · exact hz
      · exact hl s (by simp [hs]))
    simp only [List.foldl_cons]
    simp only at i1 i2
    refine ⟨i1, fun j hj => ?_⟩
    obtain ⟨j1, s, hs, j2⟩ := i2 j hj
    have h0 := j1 _ List.mem_cons_self
    rw [hzg j hj] at h0
    refine ⟨fun t ht => ?_, ?_⟩
    · simp only [List.mem_cons] at ht
      rcases ht with rfl | rfl | ht
      · exact (le_max_left _ _).trans h0
      · exact (le_max_right _ _).trans h0
      · exact j1 t (by simp [ht])
    · rcases List.mem_cons.mp hs with rfl | hs
      · rw [hzg j hj] at j2
        rcases max_choice (a.getD j 0) (b.getD j 0) with h | h
        · exact ⟨a, by simp, by rw [← j2, h]⟩
        · exact ⟨b, by simp, by rw [← j2, h]⟩
      · exact ⟨s, by simp [hs], j2⟩

theorem maxDim_spec (args : List (NdArr K)) : (∀ a ∈ args, a.shape.length ≤ maxDim args) ∧
    (maxDim args = 0 ∨ ∃ a ∈ args, a.shape.length = maxDim args) := by
  unfold maxDim
  have : ∀ (l : List (NdArr K)) (n : ℕ), n ≤ l.foldl (fun n a => max n a.shape.length) n ∧
      (∀ a ∈ l, a.shape.length ≤ l.foldl (fun n a => max n a.shape.length) n) ∧
      (l.foldl (fun n a => max n a.shape.length) n = n ∨ ∃ a ∈ l, a.shape.length = l.foldl (fun n a => max n a.shape.length) n) := by
    intro l
    induction l with
    | nil => intro n; simp
    | cons b l ih =>
      intro n
      obtain ⟨h1, h2, h3⟩ := ih (max n b.shape.length)
      rw [List.foldl_cons]
      refine ⟨(le_max_left _ _).trans h1, fun a ha => ?_, ?_⟩
      · rcases List.mem_cons.mp ha with rfl | ha
        · exact (le_max_right _ _).trans h1
        · exact h2 a ha
      · rcases h3 with h | ⟨a, ha, h⟩
        · rw [h]
          rcases max_choice n b.shape.length with hm | hm
          · exact .inl hm
          · exact .inr ⟨b, by simp, hm.symm⟩
        · exact .inr ⟨a, by simp [ha], h⟩
  obtain ⟨-, h2, h3⟩ := this args 0
  exact ⟨h2, h3⟩

/-! ### `cat_` -/

theorem catLoop_err {k : ℕ} {l : List (ℕ × NdArr K)} : ∀ {i : ℕ} {r : NdArr K} {e : PyErr},
    catLoop k l i r = .error e → e = .valueError := by
  induction l with
  | nil => intro i r e h; cases h
  | cons p l ih =>
    obtain ⟨d, a⟩ := p
    intro i r e h
    simp only [catLoop, bind, Except.bind, NdArr.setSlice] at h
    split at h
    next heq => split at heq <;> cases heq; cases h; rfl
    next heq => exact ih h

theorem catLoop_ok {k : ℕ} {l : List (ℕ × NdArr K)} : ∀ {i : ℕ} {r q : NdArr K}, k < r.shape.length →
    catLoop k l i r = .ok q →
    q.shape = r.shape ∧ (∀ p ∈ l, canAssign p.2.shape (r.shape.set k p.1) = true) ∧
    (∀ J, J.getD k 0 < i → q.get J = r.get J) ∧
    ∀ t (ht : t < l.length), ∀ J c, J.getD k 0 = i + ((l.take t).map (·.1)).sum + c → c < l[t].1 → q.get J = bget l[t].2 (J.set k c) := by
  induction l with
  | nil =>
    intro i r q hk h; cases h
    exact ⟨rfl, by simp, fun _ _ => rfl, fun t ht => absurd ht (by simp)⟩
  | cons p l ih =>
    obtain ⟨d, a⟩ := p
    intro i r q hk h
    simp only [catLoop, bind, Except.bind, NdArr.setSlice] at h
    by_cases hc : canAssign a.shape (r.shape.set k d) = true
    swap
    · rw [if_neg hc] at h; cases h
    rw [if_pos hc] at h
    simp only at h
    obtain ⟨h1, h2, h3, h4⟩ := ih (r := NdArr.mk r.shape (fun idx => if i ≤ idx.getD k 0 ∧ idx.getD k 0 < i + d then
      a.get (bcIdx a.shape (idx.set k (idx.getD k 0 - i))) else r.get idx)) hk h
    simp only at h1 h2 h3 h4
    refine ⟨h1, ?_, ?_, ?_⟩
    · intro p hp
      rcases List.mem_cons.mp hp with rfl | hp
      · exact hc
      · exact h2 p hp
    · intro J hJ
      rw [h3 J (by omega), if_neg (by omega)]
    · intro t ht J c hJ hcl
      cases t with
      | zero =>
        simp only [List.take_zero, List.map_nil, List.sum_nil, Nat.add_zero, List.getElem_cons_zero] at hJ hcl ⊢
        rw [h3 J (by omega), if_pos (by omega)]
        unfold bget
        rw [hJ, Nat.add_sub_cancel_left]
      | succ t =>
        simp only [List.take_succ_cons, List.map_cons, List.sum_cons, List.getElem_cons_succ] at hJ hcl ⊢
        exact h4 t (by simpa using ht) J c (by omega) hcl

theorem catLoop_succeeds {k : ℕ} {l : List (ℕ × NdArr K)} : ∀ {i : ℕ} {r : NdArr K},
    (∀ p ∈ l, canAssign p.2.shape (r.shape.set k p.1) = true) → ∃ q, catLoop k l i r = .ok q := by
  induction l with
  | nil => intro i r _; exact ⟨r, rfl⟩
  | cons p l ih =>
    obtain ⟨d, a⟩ := p
    intro i r h
    simp only [catLoop, bind, Except.bind, NdArr.setSlice]
    rw [if_pos (h (d, a) (by simp))]
    exact ih (fun p hp => h p (by simp [hp]))

/-- The number of axes `cat_` works with: the largest number of axes, at least 1. -/
def IsCatDim (args : List (NdArr K)) (nd : ℕ) : Prop :=
  (∀ a ∈ args, a.shape.length ≤ nd) ∧ 1 ≤ nd ∧ (nd = 1 ∨ ∃ a ∈ args, a.shape.length = nd)

/-- Length of argument `a` along axis `k` of `nd` (1 if the argument does not have this axis). -/
def lenAt (nd k : ℕ) (a : NdArr K) : ℕ := (padShape nd a.shape).getD k 0

theorem catDim_eq {args : List (NdArr K)} {nd : ℕ} (h : IsCatDim args nd) : max (maxDim args) 1 = nd := by
  obtain ⟨h1, h2, h3⟩ := h
  obtain ⟨m1, m2⟩ := maxDim_spec args
  rcases h3 with h3 | ⟨a, ha, h3⟩
  · rcases m2 with m2 | ⟨b, hb, m2⟩
    · omega
    · have := h1 b hb; omega
  · have := m1 a ha
    rcases m2 with m2 | ⟨b, hb, m2⟩
    · omega
    · have := h1 b hb; omega

theorem lenAt_rdim {nd k : ℕ} {a : NdArr K} (h : a.shape.length ≤ nd) (hk : k < nd) : lenAt nd k a = rdim a.shape (nd - 1 - k) := by
  unfold lenAt
  rw [← rdim_padShape (nd := nd), rdim_of_lt (by rw [padShape_length h]; omega), padShape_length h]
  congr 1; omega

section
variable [Zero K] {args : List (NdArr K)} {nd k : ℕ} {axis : ℤ}

theorem cat_unfold (hne : args ≠ []) (hnd : IsCatDim args nd) (hax : IsAxis nd axis k) :
    cat_ args axis = catLoop k ((args.map (lenAt nd k)).zip args) 0
      ⟨maxShape ((args.map fun a => padShape nd a.shape).map (·.set k (args.map (lenAt nd k)).sum)), fun _ => 0⟩ := by
  unfold cat_
  simp only [bind, Except.bind, pure, Except.pure, throw, throwThe, MonadExceptOf.throw, catDim_eq hnd]
  rw [if_neg hne]
  try simp only
  rw [if_neg (by obtain ⟨h1, h2⟩ := hax; omega)]
  try simp only
  have : (if axis < 0 then axis + (nd : ℤ) else axis).toNat = k := by
    obtain ⟨h1, h2⟩ := hax; split <;> omega
  rw [this]
  simp only [List.map_map]
  rfl

theorem cat_shape (hne : args ≠ []) (hnd : IsCatDim args nd) (hk : k < nd) (tot : ℕ) :
    (maxShape ((args.map fun a => padShape nd a.shape).map (·.set k tot))).length = nd ∧
    (maxShape ((args.map fun a => padShape nd a.shape).map (·.set k tot))).getD k 0 = tot ∧
    ∀ j < nd, j ≠ k → (∀ a ∈ args, lenAt nd j a ≤ (maxShape ((args.map fun a => padShape nd a.shape).map (·.set k tot))).getD j 0) ∧
      ∃ a ∈ args, lenAt nd j a = (maxShape ((args.map fun a => padShape nd a.shape).map (·.set k tot))).getD j 0 := by
  have hl : ∀ s ∈ (args.map fun a => padShape nd a.shape).map (·.set k tot), s.length = nd := by
    intro s hs
    simp only [List.mem_map] at hs
    obtain ⟨_, ⟨a, ha, rfl⟩, rfl⟩ := hs
    rw [List.length_set, padShape_length (hnd.1 a ha)]
  obtain ⟨h1, h2⟩ := maxShape_spec (by simpa using hne) hl
  refine ⟨h1, ?_, fun j hj hjk => ?_⟩
  · obtain ⟨-, s, hs, h⟩ := h2 k hk
    rw [← h]
    simp only [List.mem_map] at hs
    obtain ⟨_, ⟨a, ha, rfl⟩, rfl⟩ := hs
    rw [getD_set_self (by rw [padShape_length (hnd.1 a ha)]; exact hk)]
  · obtain ⟨h3, s, hs, h⟩ := h2 j hj
    refine ⟨fun a ha => ?_, ?_⟩
    · have := h3 ((padShape nd a.shape).set k tot) (by simp only [List.mem_map]; exact ⟨_, ⟨a, ha, rfl⟩, rfl⟩)
      rwa [getD_set_ne hjk] at this
    · simp only [List.mem_map] at hs
      obtain ⟨_, ⟨a, ha, rfl⟩, rfl⟩ := hs
      rw [getD_set_ne hjk] at h
      exact ⟨a, ha, h⟩

/-- **C59** — `cat_(*args, axis=axis)`: `sh` is the common shape of the arguments on the other axes (with 1 on axis `k`).
The result has this shape, with the sum of the lengths on axis `k`; its `t`-th block is the `t`-th argument, broadcast.
(`hz`: where the common length is 0 all the arguments have length 0, see `C59_zero_length_fails`.) -/
theorem C59_cat (hne : args ≠ []) (hnd : IsCatDim args nd) (hax : IsAxis nd axis k) {sh : List ℕ}
    (hsh : Common (args.map fun a => (padShape nd a.shape).set k 1) sh)
    (hz : ∀ a ∈ args, ∀ j < nd, j ≠ k → sh.getD j 0 = 0 → lenAt nd j a = 0) :
    ∃ r, cat_ args axis = .ok r ∧ r.shape = sh.set k (args.map (lenAt nd k)).sum ∧
      ∀ t (ht : t < args.length), ∀ idx, ValidIdx (sh.set k (lenAt nd k args[t])) idx →
        r.get (idx.set k (idx.getD k 0 + ((args.take t).map (lenAt nd k)).sum)) = bget args[t] idx := by
  have hk := hax.1
  have hshl : sh.length = nd := by
    obtain ⟨s, hs, e⟩ := hsh.maxlen
    obtain ⟨a, ha, rfl⟩ := List.mem_map.mp hs
    rw [← e, List.length_set, padShape_length (hnd.1 a ha)]
  obtain ⟨m1, m2, m3⟩ := cat_shape hne hnd hk (args.map (lenAt nd k)).sum
  have hfit : ∀ a ∈ args, ∀ j < nd, j ≠ k → lenAt nd j a = sh.getD j 0 ∨ lenAt nd j a = 1 := by
    intro a ha j hj hjk
    have := hsh.fits _ (List.mem_map_of_mem ha) (nd - 1 - j)
    have hp := padShape_length (hnd.1 a ha)
    rw [rdim_set (by rw [hp]; exact hk), if_neg (by rw [hp]; omega), rdim_padShape, ← lenAt_rdim (hnd.1 a ha) hj,
      rdim_of_lt (by omega), show sh.length - 1 - (nd - 1 - j) = j by omega] at this
    exact this
  have hhit : ∀ j < nd, j ≠ k → ∃ a ∈ args, lenAt nd j a = sh.getD j 0 := by
    intro j hj hjk
    obtain ⟨s, hs, e⟩ := hsh.hit (nd - 1 - j)
    obtain ⟨a, ha, rfl⟩ := List.mem_map.mp hs
    have hp := padShape_length (hnd.1 a ha)
    rw [rdim_set (by rw [hp]; exact hk), if_neg (by rw [hp]; omega), rdim_padShape, ← lenAt_rdim (hnd.1 a ha) hj,
      rdim_of_lt (by omega), show sh.length - 1 - (nd - 1 - j) = j by omega] at e
    exact ⟨a, ha, e⟩
  have hM : maxShape ((args.map fun a => padShape nd a.shape).map (·.set k (args.map (lenAt nd k)).sum)) =
      sh.set k (args.map (lenAt nd k)).sum := by
    refine ext_getD (by rw [m1, List.length_set, hshl]) fun j hj => ?_
    rw [m1] at hj
    by_cases hjk : j = k
    · subst hjk; rw [m2, getD_set_self (by omega)]
    · rw [getD_set_ne hjk]
      obtain ⟨u1, a, ha, u2⟩ := m3 j hj hjk
      obtain ⟨b, hb, hb'⟩ := hhit j hj hjk
      have := u1 b hb
      have := hfit a ha j hj hjk
      have := hz a ha j hj hjk
      omega
  rw [cat_unfold hne hnd hax, hM]
  have hassign : ∀ p ∈ (args.map (lenAt nd k)).zip args, canAssign p.2.shape ((sh.set k (args.map (lenAt nd k)).sum).set k p.1) = true := by
    intro p hp
    obtain ⟨i, hi, rfl⟩ := List.getElem_of_mem hp
    simp only [List.getElem_zip, List.getElem_map, List.set_set]
    have hi' : i < args.length := by simpa using hi
    have ha : args[i] ∈ args := List.getElem_mem _
    rw [canAssign_iff, List.length_set, hshl]
    refine ⟨hnd.1 _ ha, fun j => ?_⟩
    rw [rdim_set (by omega)]
    rcases Nat.lt_or_ge j nd with hj | hj
    · split
      next he => left; rw [lenAt_rdim (hnd.1 _ ha) hk]; congr 1; omega
      next he =>
        have := hfit _ ha (nd - 1 - j) (by omega) (by omega)
        rw [lenAt_rdim (hnd.1 _ ha) (by omega), show nd - 1 - (nd - 1 - j) = j by omega] at this
        rw [rdim_of_lt (s := sh) (by omega), show sh.length - 1 - j = nd - 1 - j by omega]
        exact this
    · right; exact rdim_of_ge ((hnd.1 _ ha).trans hj)
  obtain ⟨q, hq⟩ := catLoop_succeeds (i := 0) (r := ⟨sh.set k (args.map (lenAt nd k)).sum, fun _ => 0⟩) hassign
  obtain ⟨q1, -, -, q4⟩ := catLoop_ok (r := ⟨sh.set k (args.map (lenAt nd k)).sum, fun _ => 0⟩) (by simpa [hshl] using hk) hq
  refine ⟨q, hq, q1, fun t ht idx hv => ?_⟩
  obtain ⟨v1, v2, -⟩ := (valid_set (by omega)).mp hv
  have := q4 t (by simpa using ht) (idx.set k (idx.getD k 0 + ((args.take t).map (lenAt nd k)).sum)) (idx.getD k 0) (by
    rw [getD_set_self (by omega)]
    have : (((args.map (lenAt nd k)).zip args).take t).map (·.1) = (args.take t).map (lenAt nd k) := by
      rw [List.map_take, List.map_fst_zip (by simp), List.map_take]
    rw [this]; omega) (by simpa using v2)
  simp only [List.getElem_zip, List.set_set, set_getD_self] at this
  exact this

/-- **C59** — a bad axis, or arguments that cannot be broadcast on the other axes, raise ValueError. -/
theorem C59_errors (hne : args ≠ []) (hnd : IsCatDim args nd) :
    ((¬ ∃ k, IsAxis nd axis k) → cat_ args axis = .error .valueError) ∧
    (IsAxis nd axis k → (¬ ∃ sh, Common (args.map fun a => (padShape nd a.shape).set k 1) sh) →
      cat_ args axis = .error .valueError) := by
  constructor
  · intro h
    unfold cat_
    simp only [bind, Except.bind, pure, Except.pure, throw, throwThe, MonadExceptOf.throw, catDim_eq hnd]
    rw [if_neg hne]
    try simp only
    rw [if_pos]
    by_contra hc
    exact h ⟨(if axis < 0 then axis + nd else axis).toNat, by split <;> omega, by split <;> omega⟩
  · intro hax h
    have hk := hax.1
    rw [cat_unfold hne hnd hax]
    obtain ⟨m1, m2, m3⟩ := cat_shape hne hnd hk (args.map (lenAt nd k)).sum
    cases hc : catLoop k ((args.map (lenAt nd k)).zip args) 0
      ⟨maxShape ((args.map fun a => padShape nd a.shape).map (·.set k (args.map (lenAt nd k)).sum)), fun _ => 0⟩ with
    | error e => rw [catLoop_err hc]
    | ok q =>
      exfalso
      obtain ⟨-, q2, -, -⟩ := catLoop_ok (r := ⟨_, fun _ => 0⟩) (by simp only [m1]; exact hk) hc
      simp only at q2
      apply h
      refine exists_common (by simpa using hne) fun s hs t ht j => ?_
      obtain ⟨a, ha, rfl⟩ := List.mem_map.mp hs
      obtain ⟨b, hb, rfl⟩ := List.mem_map.mp ht
      have pa := padShape_length (hnd.1 a ha)
      have pb := padShape_length (hnd.1 b hb)
      rw [rdim_set (by omega), rdim_set (by omega), pa, pb]
      split
      · exact .inl rfl
      next hj =>
      rw [rdim_padShape, rdim_padShape]
      have key : ∀ c ∈ args, rdim c.shape j = rdim (maxShape ((args.map fun a => padShape nd a.shape).map (·.set k (args.map (lenAt nd k)).sum))) j ∨
          rdim c.shape j = 1 := by
        intro c hcm
        obtain ⟨i, hi, rfl⟩ := List.getElem_of_mem hcm
        have := q2 (((args.map (lenAt nd k)).zip args)[i]'(by simpa using hi)) (List.getElem_mem _)
        rw [canAssign_iff] at this
        have := this.2 j
        rw [rdim_set (by omega), if_neg (by omega)] at this
        simpa using this
      have := key a ha
      have := key b hb
      omega

end

/-- **C59, finding** — an argument of length 0 on another axis does not broadcast with one of length 1: the code takes
the larger length, 1. -/
theorem C59_zero_length_fails : Common [[1, 0], [1, 1]] [1, 0] ∧
    (cat_ [(⟨[2, 0], fun _ => 0⟩ : NdArr ℤ), ⟨[], fun _ => 1⟩]).isOk = false := by
  refine ⟨bcastShape_ok (by decide), by decide⟩

/-! ### `a_` -/

section
variable [Zero K] {args : List (NdArr K)} {k : ℕ} {axis : ℤ} {sh : List ℕ}

theorem stackLoop_ok {l : List (NdArr K)} {sh : List ℕ} (hk : k ≤ sh.length) {N : ℕ} : ∀ {i : ℕ} {r : NdArr K},
    r.shape = sh.insertIdx k N → (∀ a ∈ l, canAssign a.shape sh = true) →
    ∃ q, stackLoop k l i r = .ok q ∧ q.shape = r.shape ∧ (∀ J, J.getD k 0 < i → q.get J = r.get J) ∧
      ∀ t (ht : t < l.length), ∀ idx : List ℕ, k ≤ idx.length → q.get (idx.insertIdx k (i + t)) = bget l[t] idx := by
  induction l with
  | nil => intro i r _ _; exact ⟨r, rfl, rfl, fun _ _ => rfl, fun t ht => absurd ht (by simp)⟩
  | cons a l ih =>
    intro i r hr h
    have he : r.shape.eraseIdx k = sh := by rw [hr, List.eraseIdx_insertIdx_self]
    obtain ⟨q, h1, h2, h3, h4⟩ := ih (i := i + 1) (r := ⟨r.shape, fun idx => if idx.getD k 0 = i then a.get (bcIdx a.shape (idx.eraseIdx k)) else r.get idx⟩)
      hr (fun b hb => h b (by simp [hb]))
    refine ⟨q, ?_, h2, ?_, ?_⟩
    · simp only [stackLoop, bind, Except.bind, NdArr.setAt, he]
      rw [if_pos (h a (by simp))]
      exact h1
    · intro J hJ
      rw [h3 J (by omega)]
      simp only
      rw [if_neg (by omega)]
    · intro t ht idx hki
      cases t with
      | zero =>
        rw [h3 _ (by rw [getD_insert_self hki]; omega)]
        simp only [getD_insert_self hki, Nat.add_zero, if_true, List.eraseIdx_insertIdx_self, List.getElem_cons_zero]
        rfl
      | succ t =>
        rw [show i + (t + 1) = i + 1 + t by omega, h4 t (by simpa using ht) idx hki]
        simp

theorem stackLoop_err {l : List (NdArr K)} {N : ℕ} : ∀ {i : ℕ} {r : NdArr K}, r.shape = sh.insertIdx k N →
    (∃ a ∈ l, canAssign a.shape sh = false) → stackLoop k l i r = .error .valueError := by
  induction l with
  | nil => intro i r _ h; simp at h
  | cons a l ih =>
    intro i r hr h
    have he : r.shape.eraseIdx k = sh := by rw [hr, List.eraseIdx_insertIdx_self]
    simp only [stackLoop, bind, Except.bind, NdArr.setAt, he]
    by_cases hc : canAssign a.shape sh = true
    · rw [if_pos hc]
      simp only
      refine ih hr ?_
      obtain ⟨b, hb, h⟩ := h
      rcases List.mem_cons.mp hb with rfl | hb
      · rw [hc] at h; cases h
      · exact ⟨b, hb, h⟩
    · rw [if_neg hc]

theorem maxDim_common (h : Common (args.map (·.shape)) sh) : maxDim args = sh.length := by
  obtain ⟨m1, m2⟩ := maxDim_spec args
  obtain ⟨s, hs, e⟩ := h.maxlen
  obtain ⟨a, ha, rfl⟩ := List.mem_map.mp hs
  have := m1 a ha
  rcases m2 with m2 | ⟨b, hb, m2⟩
  · omega
  · have := h.len _ (List.mem_map_of_mem hb); omega

theorem stack_shape (hne : args ≠ []) : (maxShape (args.map fun a => padShape (maxDim args) a.shape)).length = maxDim args ∧
    ∀ j < maxDim args, (∀ a ∈ args, rdim a.shape j ≤ rdim (maxShape (args.map fun a => padShape (maxDim args) a.shape)) j) ∧
      ∃ a ∈ args, rdim a.shape j = rdim (maxShape (args.map fun a => padShape (maxDim args) a.shape)) j := by
  have hd := (maxDim_spec args).1
  have hl : ∀ s ∈ (args.map fun a => padShape (maxDim args) a.shape), s.length = maxDim args := by
    intro s hs
    obtain ⟨a, ha, rfl⟩ := List.mem_map.mp hs
    exact padShape_length (hd a ha)
  obtain ⟨h1, h2⟩ := maxShape_spec (by simpa using hne) hl
  refine ⟨h1, fun j hj => ?_⟩
  have e : ∀ a ∈ args, (padShape (maxDim args) a.shape).getD (maxDim args - 1 - j) 0 = rdim a.shape j := by
    intro a ha
    rw [← rdim_padShape (nd := maxDim args), rdim_of_lt (by rw [padShape_length (hd a ha)]; exact hj), padShape_length (hd a ha)]
  obtain ⟨h3, s, hs, h4⟩ := h2 (maxDim args - 1 - j) (by omega)
  rw [rdim_of_lt (by omega), h1]
  refine ⟨fun a ha => ?_, ?_⟩
  · rw [← e a ha]; exact h3 _ (List.mem_map_of_mem ha)
  · obtain ⟨a, ha, rfl⟩ := List.mem_map.mp hs
    exact ⟨a, ha, by rw [← e a ha, h4]⟩

theorem stack_common (hne : args ≠ []) (h : Common (args.map (·.shape)) sh) (hz : ∀ a ∈ args, ∀ j, rdim sh j = 0 → rdim a.shape j = 0) :
    maxShape (args.map fun a => padShape (maxDim args) a.shape) = sh := by
  obtain ⟨h1, h2⟩ := stack_shape hne
  have hm := maxDim_common h
  refine ext_rdim (by rw [h1, hm]) fun j => ?_
  rcases Nat.lt_or_ge j sh.length with hj | hj
  · obtain ⟨u1, a, ha, u2⟩ := h2 j (by omega)
    obtain ⟨s, hs, e⟩ := h.hit j
    obtain ⟨b, hb, rfl⟩ := List.mem_map.mp hs
    have := u1 b hb
    have := h.fits _ (List.mem_map_of_mem ha) j
    have := hz a ha j
    omega
  · rw [rdim_of_ge (by omega), rdim_of_ge hj]

theorem a_unfold (hne : args ≠ []) (hax : IsAxis (maxDim args + 1) axis k) :
    a_ args axis = stackLoop k args 0 ⟨(maxShape (args.map fun a => padShape (maxDim args) a.shape)).insertIdx k args.length, fun _ => 0⟩ := by
  obtain ⟨h1, h2⟩ := hax
  unfold a_
  simp only [bind, Except.bind, pure, Except.pure, throw, throwThe, MonadExceptOf.throw]
  rw [if_neg hne]
  try simp only
  rw [if_neg (by push_cast at h2; omega)]
  try simp only
  have : min (if axis < 0 then (maxDim args : ℤ) + 1 + axis else axis).toNat (maxDim args) = k := by
    push_cast at h2; split <;> omega
  rw [this]

/-- **C60** — `a_(*args, axis=axis)` of arguments with the common shape `sh`: a new axis at the requested position, one
element for each argument, which is the argument broadcast to `sh`. -/
theorem C60_stack (hne : args ≠ []) (h : Common (args.map (·.shape)) sh) (hz : ∀ a ∈ args, ∀ j, rdim sh j = 0 → rdim a.shape j = 0)
    (hax : IsAxis (sh.length + 1) axis k) :
    ∃ r, a_ args axis = .ok r ∧ r.shape = sh.insertIdx k args.length ∧
      ∀ t (ht : t < args.length), ∀ idx, ValidIdx sh idx → r.get (idx.insertIdx k t) = bget args[t] idx := by
  have hm := maxDim_common h
  have hk : k ≤ sh.length := by have := hax.1; omega
  rw [a_unfold hne (by rw [hm]; exact hax), stack_common hne h hz]
  obtain ⟨q, q1, q2, -, q4⟩ := stackLoop_ok (l := args) hk (i := 0) (r := ⟨sh.insertIdx k args.length, fun _ => 0⟩) rfl (fun a ha =>
    canAssign_iff.mpr ⟨h.len _ (List.mem_map_of_mem ha), h.fits _ (List.mem_map_of_mem ha)⟩)
  refine ⟨q, q1, q2, fun t ht idx hv => ?_⟩
  have := q4 t ht idx (by rw [hv.1]; exact hk)
  rwa [Nat.zero_add] at this

/-- **C60** — a bad axis (unless all arguments are scalars), or arguments that do not conform, raise ValueError. -/
theorem C60_errors (hne : args ≠ []) :
    ((¬ ∃ k, IsAxis (maxDim args + 1) axis k) → (0 < maxDim args ∨ axis < 0) → a_ args axis = .error .valueError) ∧
    (IsAxis (maxDim args + 1) axis k → (¬ ∃ sh, Common (args.map (·.shape)) sh) → a_ args axis = .error .valueError) := by
  constructor
  · intro h h0
    unfold a_
    simp only [bind, Except.bind, pure, Except.pure, throw, throwThe, MonadExceptOf.throw]
    rw [if_neg hne]
    try simp only
    rw [if_pos]
    by_contra hc
    exact h ⟨(if axis < 0 then axis + (maxDim args : ℤ) + 1 else axis).toNat, by split <;> omega, by push_cast; split <;> omega⟩
  · intro hax h
    rw [a_unfold hne hax]
    obtain ⟨h1, h2⟩ := stack_shape hne
    refine stackLoop_err rfl ?_
    by_contra hc
    push Not at hc
    apply h
    refine exists_common (by simpa using hne) fun s hs t ht j => ?_
    obtain ⟨a, ha, rfl⟩ := List.mem_map.mp hs
    obtain ⟨b, hb, rfl⟩ := List.mem_map.mp ht
    have := (canAssign_iff.mp (by simpa using hc a ha)).2 j
    have := (canAssign_iff.mp (by simpa using hc b hb)).2 j
    omega

end

/-- **C60, finding** — with scalar arguments a positive axis is not rejected; the array is built on axis 0. -/
theorem C60_scalar_axis_wrong (c d : K) [Zero K] (axis : ℤ) (h : 0 < axis) :
    a_ [⟨[], fun _ => c⟩, ⟨[], fun _ => d⟩] axis = a_ [⟨[], fun _ => c⟩, ⟨[], fun _ => d⟩] 0 := by
  have hm : maxDim [(⟨[], fun _ => c⟩ : NdArr K), ⟨[], fun _ => d⟩] = 0 := by simp [maxDim]
  unfold a_
  simp only [bind, Except.bind, pure, Except.pure, throw, throwThe, MonadExceptOf.throw, hm]
  rw [if_neg (by simp)]
  try simp only
  rw [if_neg (by omega), if_neg (by omega)]
  simp

/-! ### instances -/

/-- Joining a row, a column and a scalar: the doc's "broadcast to a common shape on all axes except the one joined". -/
example : IsCatDim [(⟨[2], fun i => (i.getD 0 0 : ℤ)⟩ : NdArr ℤ), ⟨[3, 1], fun i => 10 * (i.getD 0 0 : ℤ)⟩, ⟨[], fun _ => 7⟩] 2 ∧
    Common ([(⟨[2], fun i => (i.getD 0 0 : ℤ)⟩ : NdArr ℤ), ⟨[3, 1], fun i => 10 * (i.getD 0 0 : ℤ)⟩, ⟨[], fun _ => 7⟩].map fun a =>
      (padShape 2 a.shape).set 1 1) [3, 1] := by
  constructor
  · refine ⟨by simp, by simp, .inr ⟨⟨[3, 1], fun i => 10 * (i.getD 0 0 : ℤ)⟩, by simp, rfl⟩⟩
  · exact Common.assoc (bcastShape_ok (r := [3, 1]) (by decide)) (bcastShape_ok (by decide))

example : ((cat_ [(⟨[2], fun i => (i.getD 0 0 : ℤ)⟩ : NdArr ℤ), ⟨[3, 1], fun i => 10 * (i.getD 0 0 : ℤ)⟩, ⟨[], fun _ => 7⟩] (-1)).map fun r =>
    (r.shape, [r.get [0, 1], r.get [2, 1], r.get [1, 2], r.get [2, 3]])) = .ok ([3, 4], [1, 1, 10, 7]) := by decide

/-- The docstring's `a_(0, [2, 3, 5])`. -/
example : ((a_ [(⟨[], fun _ => 0⟩ : NdArr ℤ), ⟨[3], fun i => [2, 3, 5].getD (i.getD 0 0) 0⟩]).map fun r =>
    (r.shape, [r.get [0, 0], r.get [0, 2], r.get [1, 0], r.get [1, 2]])) = .ok ([2, 3], [0, 0, 2, 5]) := by decide

end Npplus
