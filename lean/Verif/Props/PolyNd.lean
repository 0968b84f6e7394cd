import Verif.Model.PolyNd
import Verif.Lemmas.NdArr
import Verif.Props.Poly
import Verif.Props.PwCore

/-!
# Property C106: evaluation with arrays
-/

set_option linter.unusedSectionVars false
namespace Npplus
open Spec NdArr

section
variable {K : Type} [Field K]

/-- The polynomial at the element `idx` of the result: the elements of all rows of `c` there. -/
def Spec.coefsAt (c : NdArr K) (idx : List ℕ) : List K :=
  (List.range (c.shape.headD 0)).map fun j => c.get (j :: bcIdx c.shape.tail idx)

theorem coefsAt_length (c : NdArr K) (idx : List ℕ) : (coefsAt c idx).length = c.shape.headD 0 := by simp [coefsAt]

/-! ### the list functions on `(range n).map f` -/

theorem polysetup_range (f : ℕ → K) (x : K) {n : ℕ} (hn : 2 ≤ n) : polysetup ((List.range n).map f) x = f (n - 2) + f (n - 1) * x := by
  obtain ⟨m, rfl⟩ : ∃ m, n = m + 2 := ⟨n - 2, by omega⟩
  unfold polysetup
  rw [List.range_succ, List.range_succ]
  simp [mul_comm]

theorem backFrom3_range (f : ℕ → K) (n : ℕ) : backFrom3 ((List.range n).map f) = (List.range (n - 2)).reverse.map f := by
  unfold backFrom3
  rw [List.length_map, List.length_range, ← List.map_take, List.take_range, min_eq_left (by omega), List.map_reverse]

/-! ### array operations elementwise -/

theorem common_left_pn {s t r : List ℕ} (h : Common [s, t] r) : Common [r, s] r :=
  ⟨by simp [h.len s], ⟨r, by simp, rfl⟩, fun u hu k => by
    rcases List.mem_pair.1 hu with rfl | rfl
    · exact .inl rfl
    · exact h.fits _ (by simp) k, fun k => ⟨r, by simp, rfl⟩⟩

theorem common_right_pn {s t r : List ℕ} (h : Common [s, t] r) : Common [r, t] r :=
  ⟨by simp [h.len t], ⟨r, by simp, rfl⟩, fun u hu k => by
    rcases List.mem_pair.1 hu with rfl | rfl
    · exact .inl rfl
    · exact h.fits _ (by simp) k, fun k => ⟨r, by simp, rfl⟩⟩

theorem rdim_cons_pn {r : List ℕ} (a : ℕ) {k : ℕ} (hk : k < r.length) : rdim (a :: r) k = rdim r k := by
  unfold rdim
  rw [List.reverse_cons, List.getD_append _ _ _ _ (by simpa using hk)]

theorem common_cons_pn {t r : List ℕ} (h : Common [r, t] r) (a : ℕ) : Common [a :: r, t] (a :: r) := by
  have hl := h.len t (by simp)
  refine ⟨by simp; omega, ⟨a :: r, by simp, rfl⟩, fun u hu k => ?_, fun k => ⟨a :: r, by simp, rfl⟩⟩
  rcases List.mem_pair.1 hu with rfl | rfl
  · exact .inl rfl
  · by_cases hk : k < r.length
    · rw [rdim_cons_pn a hk]
      exact h.fits _ (by simp) k
    · exact .inr (rdim_of_ge (by omega))

theorem canAssign_of_pn {s r : List ℕ} (h : Common [r, s] r) : canAssign s r = true := by
  unfold canAssign
  rw [Bool.and_eq_true, decide_eq_true_iff]
  refine ⟨h.len s (by simp), List.all_eq_true.2 fun k _ => ?_⟩
  rw [Bool.or_eq_true, beq_iff_eq, beq_iff_eq]
  exact h.fits s (by simp) k

theorem inplace_ok_pn {α β : Type} {f : α → β → α} {a : NdArr α} {b : NdArr β} (h : Common [a.shape, b.shape] a.shape) :
    a.inplace f b = .ok ⟨a.shape, fun idx => f (bget a idx) (bget b idx)⟩ := by
  unfold inplace
  rw [zip_ok_of h]
  simp [bind, Except.bind, pure, Except.pure]

theorem bcIdx_cons_pn {t i : List ℕ} (h : t.length ≤ i.length) (k : ℕ) : bcIdx t (k :: i) = bcIdx t i := by
  unfold bcIdx
  rw [List.length_cons, Nat.succ_sub h, List.drop_succ_cons]

theorem validIdx_cons_iff {r i : List ℕ} {n k : ℕ} : ValidIdx (n :: r) (k :: i) ↔ k < n ∧ ValidIdx r i := by
  constructor
  · rintro ⟨h1, h2⟩
    refine ⟨by simpa using h2 0 (by simp), by simpa using h1, fun j hj => ?_⟩
    simpa using h2 (j + 1) (by simpa using hj)
  · rintro ⟨h0, h1, h2⟩
    refine ⟨by simpa using h1, fun j hj => ?_⟩
    rcases j with _ | j
    · simpa using h0
    · simpa using h2 j (by simpa using hj)

theorem polysetupNd_ok {c x : NdArr K} (hn : c.shape.headD 0 ≠ 0) {r : List ℕ} (h : Common [c.shape.tail, x.shape] r) :
    ∃ p, polysetupNd c x = .ok p ∧ p.shape = r ∧ ∀ idx, ValidIdx r idx → p.get idx = polysetup (coefsAt c idx) (bget x idx) := by
  unfold polysetupNd
  by_cases h1 : c.shape.headD 0 = 1
  · simp only [hn, if_false, h1, if_true]
    refine ⟨_, zip_ok_of (a := c.row 0) (b := x.map fun _ => (0 : K)) h, rfl, fun idx _ => ?_⟩
    rw [coefsAt, h1]
    simp [polysetup, bget, row, NdArr.map]
  · simp only [hn, if_false, h1]
    have e1 : (c.row (c.shape.headD 0 - 1)).zip (· * ·) x = .ok ⟨r, _⟩ := zip_ok_of h
    have e2 := fun t : NdArr K => fun ht : t.shape = r => zip_ok_of (f := fun a b : K => a + b) (a := c.row (c.shape.headD 0 - 2)) (b := t) (sh := r) (by
      rw [ht]
      have := common_left_pn h
      exact this.perm (by exact List.Perm.swap _ _ _))
    refine ⟨_, by simp only [e1, bind, Except.bind]; exact e2 _ rfl, rfl, fun idx hi => ?_⟩
    rw [coefsAt, polysetup_range _ _ (by omega)]
    have hb : ∀ g : List ℕ → K, bget (⟨r, g⟩ : NdArr K) idx = g idx := fun g => bget_self (a := ⟨r, g⟩) hi
    simp only
    rw [hb]
    rfl

/-- no common shape -/
theorem polysetupNd_err {c x : NdArr K} (hn : c.shape.headD 0 ≠ 0) (h : ¬ ∃ r, Common [c.shape.tail, x.shape] r) :
    polysetupNd c x = .error .valueError := by
  unfold polysetupNd
  by_cases h1 : c.shape.headD 0 = 1
  · simp only [hn, if_false, h1, if_true]
    exact zip_err (a := c.row 0) (b := x.map fun _ => (0 : K)) h
  · simp only [hn, if_false, h1]
    rw [zip_err (a := c.row (c.shape.headD 0 - 1)) h]
    rfl

theorem polyfunNd_loop {c x : NdArr K} {r : List ℕ} (h : Common [c.shape.tail, x.shape] r) : ∀ (L : List ℕ) (p : NdArr K), p.shape = r →
    ∃ q, L.foldlM (fun p j => do
        let p ← p.inplace (· * ·) x
        p.inplace (· + ·) (c.row j)) p = Except.ok q ∧ q.shape = r ∧
      ∀ idx, ValidIdx r idx → q.get idx = (L.map fun j => c.get (j :: bcIdx c.shape.tail idx)).foldl (fun p cn => bget x idx • p + cn) (p.get idx) := by
  intro L
  induction L with
  | nil => exact fun p hp => ⟨p, rfl, hp, fun idx _ => rfl⟩
  | cons j L ih =>
    intro p hp
    have e1 : p.inplace (· * ·) x = .ok ⟨p.shape, fun idx => bget p idx * bget x idx⟩ := inplace_ok_pn (by rw [hp]; exact common_right_pn h)
    have e2 : (⟨p.shape, fun idx => bget p idx * bget x idx⟩ : NdArr K).inplace (· + ·) (c.row j) = .ok ⟨p.shape, _⟩ :=
      inplace_ok_pn (by show Common [p.shape, c.shape.tail] p.shape; rw [hp]; exact common_left_pn h)
    obtain ⟨q, h1, h2, h3⟩ := ih ⟨p.shape, fun idx => bget (⟨p.shape, fun idx => bget p idx * bget x idx⟩ : NdArr K) idx + bget (c.row j) idx⟩ hp
    refine ⟨q, ?_, h2, fun idx hi => ?_⟩
    · rw [List.foldlM_cons, e1]
      show (NdArr.inplace (· + ·) _ _ >>= _) = _
      rw [e2]
      exact h1
    · rw [h3 idx hi]
      simp only [List.map_cons, List.foldl_cons]
      congr 1
      have hb : ∀ g : List ℕ → K, bget (⟨p.shape, g⟩ : NdArr K) idx = g idx := fun g => bget_self (a := ⟨p.shape, g⟩) (by rw [hp]; exact hi)
      rw [hb, bget_self (a := p) (by rw [hp]; exact hi), smul_eq_mul, mul_comm]
      rfl

/-- **C106** `polyfun(c, x)` with arrays: the result has the shape to which the trailing axes of `c` and `x` broadcast, and each element is the
value of the polynomial with the coefficients there at the `x` there; if they do not broadcast ValueError, without any coefficient IndexError. -/
theorem C106_polyfun (c x : NdArr K) :
    (c.shape.headD 0 = 0 → polyfunNd c x = .error .indexError) ∧
    (c.shape.headD 0 ≠ 0 → (¬ ∃ r, Common [c.shape.tail, x.shape] r) → polyfunNd c x = .error .valueError) ∧
    ∀ r, c.shape.headD 0 ≠ 0 → Common [c.shape.tail, x.shape] r → ∃ p, polyfunNd c x = .ok p ∧ p.shape = r ∧
      ∀ idx, ValidIdx r idx → p.get idx = polyVal (coefsAt c idx) (bget x idx) := by
  refine ⟨fun h => ?_, fun h h' => ?_, fun r hn h => ?_⟩
  · unfold polyfunNd polysetupNd
    simp only [h, if_true]
    rfl
  · unfold polyfunNd
    rw [polysetupNd_err h h']
    rfl
  · obtain ⟨p, h1, h2, h3⟩ := polysetupNd_ok hn h
    obtain ⟨q, h4, h5, h6⟩ := polyfunNd_loop h (List.range (c.shape.headD 0 - 2)).reverse p h2
    refine ⟨q, by unfold polyfunNd; rw [h1]; exact h4, h5, fun idx hi => ?_⟩
    rw [h6 idx hi, h3 idx hi, ← polyfun_eq]
    unfold polyfun
    rw [show coefsAt c idx = (List.range (c.shape.headD 0)).map _ from rfl, backFrom3_range]


/-! ### derivatives -/

theorem polyddxStep_getD (x : K) {nd : ℕ} {l : List K} (hl : l.length = nd + 1) (cn : K) {k : ℕ} (hk : k ≤ nd) :
    (polyddxStep x nd l cn).length = nd + 1 ∧ (polyddxStep x nd l cn).getD k 0 = l.getD k 0 * x + if k = 0 then cn else l.getD (k - 1) 0 := by
  have h1 : (polyddxStep x nd l cn).length = nd + 1 := by
    unfold polyddxStep
    simp [hl]
  refine ⟨h1, ?_⟩
  rw [List.getD_eq_getElem _ _ (by omega), List.getD_eq_getElem _ _ (by omega)]
  unfold polyddxStep
  rw [List.getElem_zipWith, smul_eq_mul, mul_comm]
  congr 1
  rcases k with _ | k
  · simp
  · rw [List.getD_eq_getElem _ _ (by omega)]
    simp

theorem ddx_step_pn {c x p : NdArr K} {r : List ℕ} {nd : ℕ} (h : Common [c.shape.tail, x.shape] r) (hp : p.shape = (nd + 1) :: r) (j : ℕ) :
    ∃ q, (do
        let cns : NdArr K := p.map fun _ => 0
        let cns ← cns.setAt 0 0 (c.row j)
        let cns ← cns.setSlice 0 1 nd (p.sliceAx 0 0 nd)
        let p ← p.inplace (· * ·) x
        p.inplace (· + ·) cns) = Except.ok q ∧ q.shape = (nd + 1) :: r ∧
      ∀ k ≤ nd, ∀ idx, ValidIdx r idx → q.get (k :: idx) = p.get (k :: idx) * bget x idx +
        if k = 0 then c.get (j :: bcIdx c.shape.tail idx) else p.get ((k - 1) :: idx) := by
  have a1 : canAssign (c.row j).shape ((p.map fun _ => (0 : K)).shape.eraseIdx 0) = true := by
    show canAssign c.shape.tail (p.shape.eraseIdx 0) = true
    rw [hp]
    exact canAssign_of_pn (common_left_pn h)
  set c1 : NdArr K := ⟨p.shape, fun idx => if idx.getD 0 0 = 0 then (c.row j).get (bcIdx (c.row j).shape (idx.eraseIdx 0)) else (p.map fun _ => (0 : K)).get idx⟩ with hc1
  have e1 : (p.map fun _ => (0 : K)).setAt 0 0 (c.row j) = .ok c1 := by
    unfold setAt
    rw [if_pos a1]
    rfl
  have a2 : canAssign (p.sliceAx 0 0 nd).shape (c1.shape.set 0 nd) = true := by
    show canAssign (p.shape.set 0 nd) (p.shape.set 0 nd) = true
    exact canAssign_of_pn ⟨by simp, ⟨p.shape.set 0 nd, by simp, rfl⟩, by simp, fun k => ⟨p.shape.set 0 nd, by simp, rfl⟩⟩
  set c2 : NdArr K := ⟨p.shape, fun idx => if 1 ≤ idx.getD 0 0 ∧ idx.getD 0 0 < 1 + nd
      then (p.sliceAx 0 0 nd).get (bcIdx (p.sliceAx 0 0 nd).shape (idx.set 0 (idx.getD 0 0 - 1))) else c1.get idx⟩ with hc2
  have e2 : c1.setSlice 0 1 nd (p.sliceAx 0 0 nd) = .ok c2 := by
    unfold setSlice
    rw [if_pos a2]
  have e3 : p.inplace (· * ·) x = .ok ⟨p.shape, fun idx => bget p idx * bget x idx⟩ := inplace_ok_pn (by rw [hp]; exact common_cons_pn (common_right_pn h) _)
  have e4 : (⟨p.shape, fun idx => bget p idx * bget x idx⟩ : NdArr K).inplace (· + ·) c2 =
      .ok ⟨p.shape, fun idx => bget (⟨p.shape, fun idx => bget p idx * bget x idx⟩ : NdArr K) idx + bget c2 idx⟩ :=
    inplace_ok_pn ⟨by simp [hc2], ⟨p.shape, by simp, rfl⟩, by simp [hc2], fun k => ⟨p.shape, by simp, rfl⟩⟩
  refine ⟨⟨p.shape, fun idx => bget (⟨p.shape, fun idx => bget p idx * bget x idx⟩ : NdArr K) idx + bget c2 idx⟩, ?_, hp, fun k hk idx hi => ?_⟩
  · show ((p.map fun _ => (0 : K)).setAt 0 0 (c.row j) >>= _) = _
    rw [e1]
    show (c1.setSlice 0 1 nd (p.sliceAx 0 0 nd) >>= _) = _
    rw [e2]
    show (p.inplace (· * ·) x >>= _) = _
    rw [e3]
    exact e4
  · have hv : ValidIdx p.shape (k :: idx) := by rw [hp]; exact validIdx_cons_iff.2 ⟨by omega, hi⟩
    have hb : ∀ g : List ℕ → K, bget (⟨p.shape, g⟩ : NdArr K) (k :: idx) = g (k :: idx) := fun g => bget_self (a := ⟨p.shape, g⟩) hv
    have hx : bget x (k :: idx) = bget x idx := by
      unfold bget
      rw [bcIdx_cons_pn (by rw [hi.1]; exact h.len _ (by simp))]
    simp only
    rw [hb, bget_self hv, hx, hc2, hb]
    congr 1
    rcases k with _ | k
    · simp [hc1, row]
    · rw [if_pos ⟨by simp, by simpa [Nat.add_comm] using hk⟩, if_neg (by omega)]
      have hs : (p.sliceAx 0 0 nd).shape = nd :: r := by simp [sliceAx, hp]
      rw [hs]
      simp only [List.getD_cons_zero, List.set_cons_zero, Nat.add_sub_cancel]
      rw [bcIdx_self (validIdx_cons_iff.2 ⟨by omega, hi⟩)]
      simp [sliceAx]

theorem ddx_loop_pn {c x : NdArr K} {r : List ℕ} {nd : ℕ} (h : Common [c.shape.tail, x.shape] r) : ∀ (L : List ℕ) (p : NdArr K) (l : List ℕ → List K),
    p.shape = (nd + 1) :: r → (∀ idx, ValidIdx r idx → (l idx).length = nd + 1 ∧ ∀ k ≤ nd, p.get (k :: idx) = (l idx).getD k 0) →
    ∃ q, L.foldlM (fun p j => do
        let cns : NdArr K := p.map fun _ => 0
        let cns ← cns.setAt 0 0 (c.row j)
        let cns ← cns.setSlice 0 1 nd (p.sliceAx 0 0 nd)
        let p ← p.inplace (· * ·) x
        p.inplace (· + ·) cns) p = Except.ok q ∧ q.shape = (nd + 1) :: r ∧
      ∀ idx, ValidIdx r idx → ∀ k ≤ nd, q.get (k :: idx) =
        ((L.map fun j => c.get (j :: bcIdx c.shape.tail idx)).foldl (polyddxStep (bget x idx) nd) (l idx)).getD k 0 := by
  intro L
  induction L with
  | nil => exact fun p l hp hl => ⟨p, rfl, hp, fun idx hi k hk => (hl idx hi).2 k hk⟩
  | cons j L ih =>
    intro p l hp hl
    obtain ⟨q, h1, h2, h3⟩ := ddx_step_pn h hp j
    obtain ⟨q', h4, h5, h6⟩ := ih q (fun idx => polyddxStep (bget x idx) nd (l idx) (c.get (j :: bcIdx c.shape.tail idx))) h2 (fun idx hi => by
      refine ⟨(polyddxStep_getD _ (hl idx hi).1 _ (Nat.zero_le nd)).1, fun k hk => ?_⟩
      rw [h3 k hk idx hi, (polyddxStep_getD _ (hl idx hi).1 _ hk).2, (hl idx hi).2 k hk]
      congr 1
      split
      · rfl
      · exact (hl idx hi).2 (k - 1) (by omega))
    refine ⟨q', ?_, h5, fun idx hi k hk => ?_⟩
    · rw [List.foldlM_cons, h1]
      exact h4
    · rw [h6 idx hi k hk]
      rfl

theorem polyddxNd_ok {c x : NdArr K} (hn : c.shape.headD 0 ≠ 0) {r : List ℕ} (h : Common [c.shape.tail, x.shape] r) (nd : ℕ) (norm : Bool) :
    ∃ p, polyddxNd c x nd norm = .ok p ∧ p.shape = (nd + 1) :: r ∧ ∀ idx, ValidIdx r idx → ∀ k ≤ nd, p.get (k :: idx) =
      ((if norm then polyddxNorm (coefsAt c idx) (bget x idx) nd else polyddx (coefsAt c idx) (bget x idx) nd)).getD k 0 := by
  obtain ⟨p0, h1, h2, h3⟩ := polysetupNd_ok hn h
  set p1 : NdArr K := concatAx 0 (p0.newAxis 0) ⟨nd :: r, fun _ => 0⟩ with hp1
  have s1 : p1.shape = (nd + 1) :: r := by
    show ((p0.newAxis 0).shape.set 0 _) = _
    simp [newAxis, h2, Nat.add_comm]
  have g1 : ∀ k idx, p1.get (k :: idx) = if k = 0 then p0.get idx else 0 := by
    intro k idx
    show (if (k :: idx).getD 0 0 < (p0.newAxis 0).shape.getD 0 0 then (p0.newAxis 0).get (k :: idx) else 0) = _
    simp [newAxis]
  have hc : ∀ idx, (coefsAt c idx).getLast?.getD 0 = c.get ((c.shape.headD 0 - 1) :: bcIdx c.shape.tail idx) := by
    intro idx
    obtain ⟨m, hm⟩ : ∃ m, c.shape.headD 0 = m + 1 := ⟨c.shape.headD 0 - 1, by omega⟩
    rw [coefsAt, hm, List.range_succ]
    simp
  obtain ⟨p2, h4, s2, g2⟩ : ∃ p2, (if nd = 0 then pure p1 else p1.setAt 0 1 (c.row (c.shape.headD 0 - 1))) = Except.ok p2 ∧ p2.shape = (nd + 1) :: r ∧
      ∀ idx, ValidIdx r idx → (polyddxInit (coefsAt c idx) (bget x idx) nd).length = nd + 1 ∧
        ∀ k ≤ nd, p2.get (k :: idx) = (polyddxInit (coefsAt c idx) (bget x idx) nd).getD k 0 := by
    by_cases h0 : nd = 0
    · subst h0
      refine ⟨p1, rfl, s1, fun idx hi => ⟨by simp [polyddxInit], fun k hk => ?_⟩⟩
      obtain rfl : k = 0 := by omega
      rw [g1, if_pos rfl, h3 idx hi]
      simp [polyddxInit]
    · have ca : canAssign (c.row (c.shape.headD 0 - 1)).shape (p1.shape.eraseIdx 0) = true := by
        rw [s1]
        exact canAssign_of_pn (common_left_pn h)
      refine ⟨⟨p1.shape, fun idx => if idx.getD 0 0 = 1 then (c.row (c.shape.headD 0 - 1)).get (bcIdx (c.row (c.shape.headD 0 - 1)).shape (idx.eraseIdx 0))
        else p1.get idx⟩, ?_, s1, fun idx hi => ⟨by simp [polyddxInit, h0], fun k hk => ?_⟩⟩
      · rw [if_neg h0]
        unfold setAt
        rw [if_pos ca]
      · simp only [polyddxInit, h0, if_false, List.getD_cons_zero, List.eraseIdx_zero, List.tail_cons]
        rcases k with _ | _ | k
        · rw [if_neg (by omega), g1, if_pos rfl, h3 idx hi]
          simp
        · rw [if_pos rfl, hc]
          obtain ⟨m, rfl⟩ : ∃ m, nd = m + 1 := ⟨nd - 1, by omega⟩
          simp [row, List.replicate_succ]
        · rw [if_neg (by omega), g1, if_neg (by omega)]
          rw [List.getD_eq_getElem?_getD, List.getElem?_set_ne (by omega)]
          simp [List.getElem?_replicate]
          split <;> rfl
  obtain ⟨q, h5, s3, g3⟩ := ddx_loop_pn h (List.range (c.shape.headD 0 - 2)).reverse p2 _ s2 g2
  have g4 : ∀ idx, ValidIdx r idx → ∀ k ≤ nd, q.get (k :: idx) = (polyddx (coefsAt c idx) (bget x idx) nd).getD k 0 := by
    intro idx hi k hk
    rw [g3 idx hi k hk]
    unfold polyddx
    rw [show backFrom3 (coefsAt c idx) = _ from backFrom3_range _ _]
  have hE : polyddxNd c x nd norm = if norm ∧ nd ≠ 0 then
    .ok ⟨q.shape, fun idx => if 1 ≤ idx.headD 0 then q.get idx * (Nat.factorial (idx.headD 0) : K) else q.get idx⟩ else .ok q := by
    unfold polyddxNd
    rw [h1]
    simp only [bind, Except.bind] at h4 h5 ⊢
    simp only [h2, ← hp1]
    by_cases h0 : nd = 0
    · rw [if_pos h0] at h4 ⊢
      have e : p1 = p2 := Except.ok.inj h4
      simp only [pure, Except.pure]
      rw [e, h5]
    · rw [if_neg h0] at h4 ⊢
      rw [h4]
      simp only
      rw [h5]
      rfl
  have hlen : ∀ idx, ValidIdx r idx → (polyddx (coefsAt c idx) (bget x idx) nd).length = nd + 1 := by
    intro idx hi
    unfold polyddx
    generalize backFrom3 (coefsAt c idx) = L
    have : ∀ (L : List K) (l : List K), l.length = nd + 1 → (L.foldl (polyddxStep (bget x idx) nd) l).length = nd + 1 := by
      intro L
      induction L with
      | nil => exact fun l hl => hl
      | cons a L ih => exact fun l hl => ih _ (polyddxStep_getD _ hl _ (Nat.zero_le nd)).1
    exact this _ _ (g2 idx hi).1
  have hnorm : ∀ idx, ValidIdx r idx → ∀ k ≤ nd, (polyddxNorm (coefsAt c idx) (bget x idx) nd).getD k 0 =
      (Nat.factorial k : K) * (polyddx (coefsAt c idx) (bget x idx) nd).getD k 0 := by
    intro idx hi k hk
    have := hlen idx hi
    unfold polyddxNorm
    rw [List.getD_eq_getElem _ _ (by simp; omega), List.getElem_mapIdx, List.getD_eq_getElem _ _ (by omega), smul_eq_mul]
  by_cases hb : norm = true ∧ nd ≠ 0
  · refine ⟨⟨q.shape, fun idx => if 1 ≤ idx.headD 0 then q.get idx * (Nat.factorial (idx.headD 0) : K) else q.get idx⟩, by rw [hE, if_pos hb], s3,
      fun idx hi k hk => ?_⟩
    rw [if_pos hb.1, hnorm idx hi k hk]
    simp only [List.headD_cons]
    rw [g4 idx hi k hk]
    by_cases hk1 : 1 ≤ k
    · simp only [hk1, if_true]
      rw [mul_comm]
    · obtain rfl : k = 0 := by omega
      simp
  · refine ⟨q, by rw [hE, if_neg hb], s3, fun idx hi k hk => ?_⟩
    rw [g4 idx hi k hk]
    cases norm with
    | false => simp
    | true =>
      obtain rfl : nd = 0 := by by_contra h; exact hb ⟨rfl, h⟩
      obtain rfl : k = 0 := by omega
      rw [if_pos rfl, hnorm idx hi 0 le_rfl]
      simp

/-- **C106** `polyddx(c, x, nd, norm)` with arrays: the derivative order is a new first axis, the other axes are those to which `c` and `x`
broadcast, and each element is the Taylor coefficient (with `norm`, the derivative) of the polynomial there; for one coefficient only with
`nd = 0` (C02). -/
theorem C106_polyddx (c x : NdArr K) (nd : ℕ) (norm : Bool) :
    (c.shape.headD 0 = 0 → polyddxNd c x nd norm = .error .indexError) ∧
    (c.shape.headD 0 ≠ 0 → (¬ ∃ r, Common [c.shape.tail, x.shape] r) → polyddxNd c x nd norm = .error .valueError) ∧
    ∀ r, 2 ≤ c.shape.headD 0 ∨ c.shape.headD 0 = 1 ∧ nd = 0 → Common [c.shape.tail, x.shape] r →
      ∃ p, polyddxNd c x nd norm = .ok p ∧ p.shape = (nd + 1) :: r ∧ ∀ idx, ValidIdx r idx → ∀ k ≤ nd,
        p.get (k :: idx) = if norm then polyDeriv (coefsAt c idx) (bget x idx) k else taylorCoeff (coefsAt c idx) (bget x idx) k := by
  refine ⟨fun h => ?_, fun h h' => ?_, fun r hn h => ?_⟩
  · unfold polyddxNd polysetupNd
    simp only [h, if_true]
    rfl
  · unfold polyddxNd
    rw [polysetupNd_err h h']
    rfl
  · obtain ⟨p, h1, h2, h3⟩ := polyddxNd_ok (by omega) h nd norm
    refine ⟨p, h1, h2, fun idx hi k hk => ?_⟩
    have hl := coefsAt_length c idx
    obtain ⟨rows, a, -, -, b⟩ := C02_polyddx_partial (coefsAt c idx) (bget x idx) nd (by
      rcases hn with hn | hn
      · exact .inl (by omega)
      · exact .inr ⟨by rw [← List.length_pos_iff]; omega, hn.2⟩)
    have : rows = polyddx (coefsAt c idx) (bget x idx) nd := by
      unfold polyddxE at a
      rw [if_neg (by omega)] at a
      cases a
      rfl
    rw [h3 idx hi k hk]
    cases norm with
    | true => rw [if_pos rfl, if_pos rfl]; exact (b k hk).2.2.1
    | false =>
      rw [if_neg (by simp), if_neg (by simp), ← this]
      exact (b k hk).1

end

section
variable {K : Type} [Field K] [LinearOrder K]

theorem common_append_pn (v t : List ℕ) : Common [v ++ t, t] (v ++ t) := by
  refine ⟨by simp, ⟨v ++ t, by simp, rfl⟩, fun u hu k => ?_, fun k => ⟨v ++ t, by simp, rfl⟩⟩
  rcases List.mem_pair.1 hu with rfl | rfl
  · exact .inl rfl
  · by_cases hk : k < u.length
    · left
      unfold rdim
      rw [List.reverse_append, List.getD_append _ _ _ _ (by simpa using hk)]
    · exact .inr (rdim_of_ge (by omega))

theorem validIdx_append_nd {v t a b : List ℕ} (ha : ValidIdx v a) (hb : ValidIdx t b) : ValidIdx (v ++ t) (a ++ b) := by
  refine ⟨by simp [ha.1, hb.1], fun k hk => ?_⟩
  by_cases h : k < v.length
  · rw [List.getD_append _ _ _ _ (by rw [ha.1]; exact h), List.getD_append _ _ _ _ h]
    exact ha.2 k h
  · rw [List.getD_append_right _ _ _ _ (by rw [ha.1]; omega), List.getD_append_right _ _ _ _ (by omega), ha.1]
    exact hb.2 _ (by simp at hk; omega)

/-- A well formed PwPoly with components of shape `V`: coefficient array of shape `(n,) + V + (number of knots + 1,)`, `n ≥ 1`, increasing knots. -/
structure Spec.NdWF (p : NdPw K) (n : ℕ) (V : List ℕ) : Prop where
  ne : p.xk ≠ []
  inc : p.xk.Pairwise (· < ·)
  pos : 1 ≤ n
  shape : p.c.shape = n :: (V ++ [p.xk.length + 1])

variable {p : NdPw K} {n : ℕ} {V : List ℕ}

theorem comp_WF_pn (hp : NdWF p n V) (v : List ℕ) : WF (p.comp v) ∧ (p.comp v).n = n ∧ (p.comp v).xk = p.xk := by
  have e : (p.comp v).n = n := by simp [NdPw.comp, hp.shape]
  refine ⟨⟨hp.ne, hp.inc, by simp [NdPw.comp], by rw [e]; exact hp.pos, fun l hl => ?_⟩, e, rfl⟩
  unfold NdPw.comp at hl ⊢
  simp only [List.mem_map] at hl
  obtain ⟨i, -, rfl⟩ := hl
  simp

/-- the coefficients the array code uses for an element -/
theorem coefs_take_pn (hp : NdWF p n V) {x : NdArr K} {v i : List ℕ} (hv : ValidIdx V v) (hi : ValidIdx x.shape i) :
    coefsAt (p.c.takeLast (x.map (searchsorted p.xk))) (v ++ i) = (p.comp v).c.getD (searchsorted p.xk (x.get i)) [] := by
  have hle : searchsorted p.xk (x.get i) < p.xk.length + 1 := by
    obtain ⟨j, hj, -⟩ := existsUnique_inPiece hp.inc (x.get i)
    have := hj.1
    rw [hj.eq_searchsorted] at *
    omega
  have hsh : (p.c.takeLast (x.map (searchsorted p.xk))).shape = n :: (V ++ x.shape) := by
    show p.c.shape.dropLast ++ x.shape = _
    rw [hp.shape]
    simp [List.dropLast_cons_of_ne_nil, List.dropLast_append_of_ne_nil]
  unfold coefsAt
  rw [hsh]
  simp only [List.headD_cons, List.tail_cons]
  rw [bcIdx_self (validIdx_append_nd hv hi)]
  unfold NdPw.comp
  rw [List.getD_eq_getElem _ _ (by simpa using hle), List.getElem_map, List.getElem_range, hp.shape]
  simp only [List.headD_cons]
  refine List.map_congr_left fun j _ => ?_
  show p.c.get _ = _
  have hl : (n :: (V ++ [p.xk.length + 1])).length - 1 = (j :: v).length := by simp [hv.1]
  rw [hp.shape, hl, show j :: (v ++ i) = (j :: v) ++ i from rfl, List.take_left, List.drop_left]
  rfl

/-- **C106** `p(x)` and `p(x, nd)` for an array `x`: the axes of the components come first, those of `x` last, and the order of the derivative,
if any, before all; the element for component `v` and point `i` is what the component at `v` (whose coefficients are `c[:, v, :]`) gives at the
number `x[i]`: with C04, the value or derivative of the polynomial of the piece to which `x[i]` belongs.  It never raises. -/
theorem C106_call (hp : NdWF p n V) (x : NdArr K) :
    (∃ r, p.call x 0 = .ok r ∧ r.shape = V ++ x.shape ∧ ∀ v i, ValidIdx V v → ValidIdx x.shape i → r.get (v ++ i) = (p.comp v).call (x.get i)) ∧
    ∀ nd, 1 ≤ nd → ∃ r, p.call x nd = .ok r ∧ r.shape = (nd + 1) :: (V ++ x.shape) ∧ ∀ v i, ValidIdx V v → ValidIdx x.shape i → ∀ k ≤ nd,
      r.get (k :: (v ++ i)) = ((p.comp v).callN (x.get i) nd).getD k 0 := by
  have hsh : (p.c.takeLast (x.map (searchsorted p.xk))).shape = n :: (V ++ x.shape) := by
    show p.c.shape.dropLast ++ x.shape = _
    rw [hp.shape]
    simp [List.dropLast_cons_of_ne_nil, List.dropLast_append_of_ne_nil]
  set c := p.c.takeLast (x.map (searchsorted p.xk)) with hc
  set x' := x.map fun t => t - (PwPoly.mkXk0 p.xk).getD (searchsorted p.xk t) 0 with hx'
  have hC : Common [c.shape.tail, x'.shape] (V ++ x.shape) := by
    rw [hsh]
    exact common_append_pn V x.shape
  have hn : c.shape.headD 0 ≠ 0 := by
    have := hp.pos
    rw [hsh]
    simp
    omega
  have hb : ∀ v i, ValidIdx V v → ValidIdx x.shape i → bget x' (v ++ i) = x.get i - (PwPoly.mkXk0 p.xk).getD (searchsorted p.xk (x.get i)) 0 := by
    intro v i hv hi
    have e : bcIdx x'.shape (v ++ i) = i := by
      have : bcIdx x'.shape (v ++ i) = bcIdx x.shape i := by
        unfold bcIdx
        show List.zipWith _ x.shape _ = _
        rw [List.length_append, show v.length + i.length - x'.shape.length = v.length by rw [show x'.shape = x.shape from rfl, hi.1]; omega, List.drop_left,
          show i.length - x.shape.length = 0 by rw [hi.1]; omega, List.drop_zero]
      rw [this, bcIdx_self hi]
    unfold bget
    rw [e]
    rfl
  constructor
  · obtain ⟨r, h1, h2, h3⟩ := (C106_polyfun c x').2.2 _ hn hC
    refine ⟨r, h1, h2, fun v i hv hi => ?_⟩
    rw [h3 _ (validIdx_append_nd hv hi), hb v i hv hi, hc, coefs_take_pn hp hv hi]
    unfold PwPoly.call
    rw [← polyfun_eq]
    rfl
  · intro nd hnd
    obtain ⟨r, h1, h2, h3⟩ := polyddxNd_ok hn hC nd true
    refine ⟨r, ?_, h2, fun v i hv hi k hk => ?_⟩
    · unfold NdPw.call
      rw [← h1]
      simp only
      rw [if_neg (by omega)]
    · rw [h3 _ (validIdx_append_nd hv hi) k hk, if_pos rfl, hb v i hv hi, hc, coefs_take_pn hp hv hi]
      unfold PwPoly.callN
      simp only
      rw [if_neg (by omega)]
      rfl

/-- **C106** the same in terms of the pieces (with C04): no reference to the evaluation of a number. -/
theorem C106_call_piece (hp : NdWF p n V) (x : NdArr K) :
    ∃ r, p.call x 0 = .ok r ∧ r.shape = V ++ x.shape ∧ ∀ v i, ValidIdx V v → ValidIdx x.shape i → ∀ m, InPiece p.xk m (x.get i) →
      r.get (v ++ i) = ∑ k ∈ Finset.range n, p.c.get (k :: (v ++ [m])) * (x.get i - origin p.xk m) ^ k := by
  obtain ⟨r, h1, h2, h3⟩ := (C106_call hp x).1
  refine ⟨r, h1, h2, fun v i hv hi m hm => ?_⟩
  obtain ⟨hw, hn, hxk⟩ := comp_WF_pn hp v
  rw [h3 v i hv hi, ((C04_call_partial hw (x.get i)).2 m (by rw [hxk]; exact hm)).1]
  have e : piece (p.comp v) m = (List.range n).map fun j => p.c.get (j :: (v ++ [m])) := by
    unfold piece NdPw.comp
    rw [List.getD_eq_getElem _ _ (by have := hm.1; simp; omega), List.getElem_map, List.getElem_range, hp.shape]
    rfl
  unfold pieceVal polyVal
  rw [e, hxk, List.length_map, List.length_range]
  refine Finset.sum_congr rfl fun k hk => ?_
  rw [List.getD_eq_getElem _ _ (by simpa using hk), List.getElem_map, List.getElem_range, smul_eq_mul, mul_comm]

/-- **C106** periodic functions: each `x` is first moved into the period. -/
theorem C106_periodic [FloorRing K] (hp : NdWF p n V) (x : NdArr K) (period : K) :
    (∃ r, p.callPer period x 0 = .ok r ∧ r.shape = V ++ x.shape ∧ ∀ v i, ValidIdx V v → ValidIdx x.shape i →
      (⟨p.comp v, some period⟩ : PerPwPoly K K).call (x.get i) = .ok (r.get (v ++ i))) ∧
    ∀ nd, 1 ≤ nd → ∃ r, p.callPer period x nd = .ok r ∧ r.shape = (nd + 1) :: (V ++ x.shape) ∧ ∀ v i, ValidIdx V v → ValidIdx x.shape i →
      ∃ l, (⟨p.comp v, some period⟩ : PerPwPoly K K).callN (x.get i) nd = .ok l ∧ ∀ k ≤ nd, r.get (k :: (v ++ i)) = l.getD k 0 := by
  constructor
  · obtain ⟨r, h1, h2, h3⟩ := (C106_call hp (x.map fun t => p.xk.getD 0 0 + pmod (t - p.xk.getD 0 0) period)).1
    exact ⟨r, h1, h2, fun v i hv hi => by rw [h3 v i hv hi]; rfl⟩
  · intro nd hnd
    obtain ⟨r, h1, h2, h3⟩ := (C106_call hp (x.map fun t => p.xk.getD 0 0 + pmod (t - p.xk.getD 0 0) period)).2 nd hnd
    exact ⟨r, h1, h2, fun v i hv hi => ⟨_, rfl, fun k hk => h3 v i hv hi k hk⟩⟩

end

/-! ### non-trivial instances -/

/-- Two components, knots 0 and 1, straight lines: coefficients of order 0 are `10 v + i`, of order 1 `v + i`, for the component `v` and piece `i`. -/
def ndEx : NdPw ℚ := ⟨[0, 1], ⟨[2, 2, 3], fun idx => if idx.getD 0 0 = 0 then 10 * idx.getD 1 0 + idx.getD 2 0 else idx.getD 1 0 + idx.getD 2 0⟩⟩

/-- a 2 by 2 array of points, in three different pieces -/
def ndExX : NdArr ℚ := ⟨[2, 2], fun idx => if idx = [0, 0] then -1 else if idx = [0, 1] then 1 / 2 else if idx = [1, 0] then 3 else 1⟩

theorem ndEx_WF : NdWF ndEx 2 [2] := ⟨by simp [ndEx], by simp [ndEx], by norm_num, rfl⟩

/-- `p(x)` has shape (2, 2, 2); its element for component 1 and the point `x[1, 0] = 3` (after the last knot: piece 2, line `12 + 3 (x - 1)`) is 18. -/
example : ∃ r, ndEx.call ndExX 0 = .ok r ∧ r.shape = [2, 2, 2] ∧ r.get [1, 1, 0] = 18 := by
  obtain ⟨r, h1, h2, h3⟩ := C106_call_piece ndEx_WF ndExX
  refine ⟨r, h1, h2, ?_⟩
  have := h3 [1] [1, 0] ⟨rfl, by simp⟩ ⟨rfl, by rintro (_ | _ | k) hk <;> simp_all [ndExX]⟩ 2 (by
    refine ⟨by simp [ndEx], ?_, ?_⟩
    · rintro (_ | _ | k) hk
      · simp [ndEx, ndExX]
      · simp [ndEx, ndExX]
      · omega
    · intro j hj h2
      simp [ndEx] at hj
      omega)
  rw [show ([1, 1, 0] : List ℕ) = [1] ++ [1, 0] from rfl, this]
  simp [Finset.sum_range_succ, ndEx, ndExX, origin]
  norm_num

/-- shapes which do not broadcast: coefficients for two components, three points -/
example : polyfunNd (⟨[3, 2], fun _ => 1⟩ : NdArr ℚ) ⟨[3], fun _ => 0⟩ = .error .valueError := by
  refine (C106_polyfun _ _).2.1 (by simp) ?_
  rintro ⟨r, h⟩
  have h1 := h.fits [2] (by simp) 0
  have h2 := h.fits [3] (by simp) 0
  simp [rdim] at h1 h2
  omega

/-- shapes which do: coefficients of shape (3, 2, 1), three points give (2, 3) -/
example : ∃ p, polyfunNd (⟨[3, 2, 1], fun idx => (idx.getD 0 0 : ℚ) + idx.getD 1 0⟩ : NdArr ℚ) ⟨[3], fun idx => idx.getD 0 0⟩ = .ok p ∧
    p.shape = [2, 3] ∧ p.get [1, 2] = 1 + 2 * 2 + 3 * 2 ^ 2 := by
  obtain ⟨p, h1, h2, h3⟩ := (C106_polyfun (⟨[3, 2, 1], fun idx => (idx.getD 0 0 : ℚ) + idx.getD 1 0⟩ : NdArr ℚ) ⟨[3], fun idx => idx.getD 0 0⟩).2.2 [2, 3]
    (by simp) ⟨by simp, ⟨[2, 1], by simp, rfl⟩, fun u hu k => by
      rcases List.mem_pair.1 hu with rfl | rfl <;> rcases k with _ | _ | k <;> simp [rdim],
      fun k => by
        rcases k with _ | _ | k
        · exact ⟨[3], by simp, by simp [rdim]⟩
        · exact ⟨[2, 1], by simp, by simp [rdim]⟩
        · exact ⟨[3], by simp, by simp [rdim]⟩⟩
  refine ⟨p, h1, h2, ?_⟩
  rw [h3 [1, 2] ⟨rfl, by rintro (_ | _ | k) hk <;> simp_all⟩]
  simp [polyVal, coefsAt, bget, bcIdx, List.range_succ, Finset.sum_range_succ]
  norm_num

end Npplus
