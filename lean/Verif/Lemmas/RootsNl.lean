import Verif.Lemmas.RootsMain

/-! Helper lemmas about `roots`: the nonlinear pieces and the removal of duplicates. -/

set_option linter.unusedSectionVars false
set_option linter.unusedVariables false

namespace Npplus

open Spec Finset Roots

variable {K : Type} [Field K] [LinearOrder K] [IsStrictOrderedRing K]

theorem mapM_ok_map {α β : Type} (f : α → Except PyErr β) (g : α → β) (l : List α) (h : ∀ a ∈ l, f a = .ok (g a)) :
    l.mapM f = .ok (l.map g) := by
  induction l with
  | nil => rfl
  | cons a l ih =>
    rw [List.mapM_cons, h a (by simp), ih fun b hb => h b (by simp [hb])]
    rfl

theorem filter_prefix {α : Type} {P : α → Bool} {l : List α} (h : l.Pairwise (fun a b => P b = true → P a = true))
    {k : ℕ} {a : α} (hk : (l.filter P)[k]? = some a) : l[k]? = some a := by
  induction l generalizing k with
  | nil => simp at hk
  | cons b l ih =>
    rw [List.pairwise_cons] at h
    by_cases hb : P b = true
    · rw [List.filter_cons, if_pos hb] at hk
      cases k with
      | zero => simpa using hk
      | succ k => simp only [List.getElem?_cons_succ] at hk ⊢; exact ih h.2 hk
    · rw [List.filter_cons, if_neg hb] at hk
      have := List.mem_of_getElem? hk
      rw [List.mem_filter] at this
      exact absurd (h.1 a this.1 this.2) hb

theorem range_filter_full {n : ℕ} {P : ℕ → Bool} {k j : ℕ} (h : ((List.range n).filter P)[k]? = some j) :
    k ≤ j := by
  have hs : ((List.range n).filter P).Pairwise (· < ·) := List.pairwise_lt_range.filter _
  -- strictly increasing from ≥ 0
  have : ∀ (l : List ℕ), l.Pairwise (· < ·) → ∀ k j b, (∀ a ∈ l, b ≤ a) → l[k]? = some j → k + b ≤ j := by
    intro l
    induction l with
    | nil => intro _ k j b _ h; simp at h
    | cons a l ih =>
      intro hs k j b hb h
      rw [List.pairwise_cons] at hs
      cases k with
      | zero => simp at h; subst h; have := hb a (by simp); omega
      | succ k =>
        simp only [List.getElem?_cons_succ] at h
        have := ih hs.2 k j (b + 1) (fun c hc => by have := hs.1 c hc; have := hb a (by simp); omega) h
        omega
  have := this _ hs k j 0 (fun _ _ => Nat.zero_le _) h
  omega

/-- what the nonlinear part returns -/
theorem nlRoots_spec {E : (n : ℕ) → Matrix (Fin n) (Fin n) K → List K} (hE : EigSpec E) {p : PwPoly K K} (hp : WF p)
    (hn : 2 ≤ p.n) {v tol : K} (ht : 0 ≤ tol) (hneg : NotNegligible p v tol) (hnl : NonlinearFirst p v) :
    ∃ L, nlRoots E p v tol = .ok L ∧ L.length ≤ (p.xk.length + 1) * (p.n - 1) ∧
      ∀ x, x ∈ L ↔ ∃ j t, MayVanish p v j ∧ 2 ≤ pieceDeg p j ∧ UnitRoot p v j t ∧
        x = t * width p.xk j + origin p.xk j ∧
        (j = 0 → t ≤ 0) ∧ (j ≠ 0 → 0 ≤ t) ∧ (j ≠ 0 → ¬ (j = p.xk.length ∧ AllNonlinear p v) → t ≤ 1) := by
  have hdeg : ∀ i ∈ cols p v, decide (1 < effDeg tol (sc p v i)) = decide (2 ≤ pieceDeg p i) := by
    intro i hi
    rw [effDeg_eq hp ht hneg ((mem_cols hp hn v i).mp hi)]
    rfl
  have hfilt : (cols p v).filter (fun i => decide (1 < effDeg tol (sc p v i))) =
      (cols p v).filter (fun i => decide (2 ≤ pieceDeg p i)) := List.filter_congr hdeg
  set nl := (cols p v).filter (fun i => decide (2 ≤ pieceDeg p i)) with hnldef
  have hdegs := degs_eq hp hn ht hneg
  have hcf : (Roots.maybe p v 0 && decide (1 < (degs p v tol).getD 0 0)) = true ↔ MayVanish p v 0 ∧ 2 ≤ pieceDeg p 0 := by
    rw [Bool.and_eq_true, ← maybe_iff hp hn v (Nat.zero_le _)]
    refine and_congr_right fun h => ?_
    obtain ⟨r, hr⟩ := cols_head hp h
    rw [hdegs, hr]
    simp; omega
  have hcl : (Roots.maybe p v p.xk.length && decide (1 < (degs p v tol).getLastD 0)) = true ↔
      MayVanish p v p.xk.length ∧ 2 ≤ pieceDeg p p.xk.length := by
    rw [Bool.and_eq_true, ← maybe_iff hp hn v le_rfl]
    refine and_congr_right fun h => ?_
    obtain ⟨r, hr⟩ := cols_last hp h
    rw [hdegs, hr]
    simp; omega
  have hmem : ∀ j i, (j, i) ∈ nl.zipIdx → MayVanish p v j ∧ 2 ≤ pieceDeg p j := by
    intro j i h
    have := List.mem_of_getElem? (zipIdx_mem.mp h)
    rw [hnldef, List.mem_filter, mem_cols hp hn, decide_eq_true_eq] at this
    exact this
  have hdi : ∀ j i, (j, i) ∈ nl.zipIdx → (degs p v tol).getD i 0 = pieceDeg p j := by
    intro j i h
    have h1 : (cols p v)[i]? = some j := by
      refine filter_prefix ?_ (zipIdx_mem.mp h)
      refine List.Pairwise.imp_of_mem ?_ (cols_sorted p v)
      intro a b ha hb hab h
      rw [decide_eq_true_eq] at h ⊢
      exact hnl a b ((mem_cols hp hn v a).mp ha) ((mem_cols hp hn v b).mp hb) hab h
    rw [hdegs, List.getD_eq_getElem?_getD, List.getElem?_map, h1]
    rfl
  have hsort : nl.Pairwise (· < ·) := (cols_sorted p v).filter _
  have hij : ∀ j i, (j, i) ∈ nl.zipIdx → i ≤ j := by
    intro j i h
    have e : nl = (List.range p.c.length).filter (fun a => Roots.maybe p v a && decide (2 ≤ pieceDeg p a)) := by
      rw [hnldef]; unfold cols; rw [List.filter_filter]; congr 1; funext a; exact Bool.and_comm _ _
    have := zipIdx_mem.mp h
    rw [e] at this
    exact range_filter_full this
  -- position 0 is piece 0 when that piece takes part
  have hzero : ∀ j i, (j, i) ∈ nl.zipIdx → ((i = 0 ∧ (MayVanish p v 0 ∧ 2 ≤ pieceDeg p 0)) ↔ j = 0) := by
    intro j i h
    have hm := hmem j i h
    constructor
    · rintro ⟨h0, h1⟩
      obtain ⟨r, hr⟩ := cols_head hp ((maybe_iff hp hn v (Nat.zero_le _)).mpr h1.1)
      have hr' : nl = 0 :: r.filter (fun i => decide (2 ≤ pieceDeg p i)) := by
        rw [hnldef, hr, List.filter_cons, if_pos (by simpa using h1.2)]
      exact (sorted_head hsort hr' (zipIdx_mem.mp h)).mp h0
    · intro h0
      subst h0
      exact ⟨by have := hij _ _ h; omega, hm⟩
  have hfull : ∀ j i, (j, i) ∈ nl.zipIdx →
      ((i < p.xk.length ∨ ¬ (MayVanish p v p.xk.length ∧ 2 ≤ pieceDeg p p.xk.length)) ↔ ¬ (j = p.xk.length ∧ AllNonlinear p v)) := by
    intro j i h
    have hm := hmem j i h
    have hle := hij j i h
    have hjl := hm.1.1
    by_cases hA : AllNonlinear p v
    · have e : nl = List.range (p.xk.length + 1) := by
        rw [hnldef]; unfold cols
        rw [List.filter_filter, hp.len]
        apply List.filter_eq_self.mpr
        intro a ha
        rw [List.mem_range] at ha
        rw [Bool.and_eq_true, decide_eq_true_eq]
        exact ⟨(hA a (by omega)).2, (maybe_iff hp hn v (by omega)).mpr (hA a (by omega)).1⟩
      have hz := zipIdx_mem.mp h
      have hi : i = j := by
        rw [e] at hz
        have hlt := (List.getElem?_eq_some_iff.mp hz).1
        have he := (List.getElem?_eq_some_iff.mp hz).2
        simpa using he
      subst hi
      have := hA _ le_rfl
      constructor
      · rintro (h' | h')
        · rintro ⟨h1, _⟩; omega
        · exact absurd this h'
      · intro h'
        left
        by_contra hc
        exact h' ⟨by omega, hA⟩
    · refine ⟨fun _ h' => hA h'.2, fun _ => Or.inl ?_⟩
      by_contra hc
      have hi : i = p.xk.length := by omega
      apply hA
      have hlen : nl.length = (List.range p.c.length).length := by
        have h1 : i < nl.length := (List.getElem?_eq_some_iff.mp (zipIdx_mem.mp h)).1
        have h2 : nl.length ≤ (List.range p.c.length).length := by
          rw [hnldef]; unfold cols; exact (List.length_filter_le _ _).trans (List.length_filter_le _ _)
        have := hp.len
        simp at h2 ⊢; omega
      have e : nl = (List.range p.c.length).filter (fun a => Roots.maybe p v a && decide (2 ≤ pieceDeg p a)) := by
        rw [hnldef]; unfold cols; rw [List.filter_filter]; congr 1; funext a; exact Bool.and_comm _ _
      rw [e, List.length_filter_eq_length_iff] at hlen
      intro a ha
      have := hlen a (by rw [List.mem_range, hp.len]; omega)
      rw [Bool.and_eq_true, decide_eq_true_eq] at this
      exact ⟨(maybe_iff hp hn v ha).mp this.1, this.2⟩
  set cf := (Roots.maybe p v 0 && decide (1 < (degs p v tol).getD 0 0)) with hcfdef
  set cl := (Roots.maybe p v p.xk.length && decide (1 < (degs p v tol).getLastD 0)) with hcldef
  set okf : ℕ → K → Bool := fun i t =>
      if (decide (i = 0) && cf) = true then decide (t ≤ 0)
      else if (decide (i < p.xk.length) || !cl) = true then decide (0 ≤ t) && decide (t ≤ 1)
      else decide (0 ≤ t) with hokf
  set g : ℕ × ℕ → List K := fun ji =>
    ((E (pieceDeg p ji.1) (companion (pieceDeg p ji.1) (sc p v ji.1))).filter (okf ji.2)).map (unscale p ji.1) with hg
  have hstep : ∀ a ∈ nl.zipIdx, nlStep E p v tol cf cl a = .ok (g a) := by
    rintro ⟨j, i⟩ h
    have hm := hmem j i h
    have hd := hdi j i h
    unfold nlStep
    simp only
    generalize (degs p v tol).getD i 0 = d at hd ⊢
    subst hd
    rw [if_neg (by omega), if_neg]
    rw [sc_getD hp v hm.1.1]
    exact unitCoef_lead hp v (by omega)
  have hok : ∀ j i, (j, i) ∈ nl.zipIdx → ∀ t, okf i t = true ↔
      (j = 0 → t ≤ 0) ∧ (j ≠ 0 → 0 ≤ t) ∧ (j ≠ 0 → ¬ (j = p.xk.length ∧ AllNonlinear p v) → t ≤ 1) := by
    intro j i h t
    have h1 : ((decide (i = 0) && cf) = true) ↔ j = 0 := by
      rw [Bool.and_eq_true, decide_eq_true_eq, hcf, hzero j i h]
    have h2 : ((decide (i < p.xk.length) || !cl) = true) ↔ ¬ (j = p.xk.length ∧ AllNonlinear p v) := by
      rw [← hfull j i h, Bool.or_eq_true, decide_eq_true_eq, Bool.not_eq_true', Bool.eq_false_iff, Ne, hcl]
    rw [hokf]
    beta_reduce
    by_cases hj : j = 0
    · rw [if_pos (h1.mpr hj)]; simp [hj]
    · rw [if_neg (fun h => hj (h1.mp h))]
      by_cases hl : j = p.xk.length ∧ AllNonlinear p v
      · rw [if_neg (fun h => (h2.mp h) hl), decide_eq_true_eq]
        exact ⟨fun h => ⟨fun h0 => absurd h0 hj, fun _ => h, fun _ h' => absurd hl h'⟩, fun h => h.2.1 hj⟩
      · rw [if_pos (h2.mpr hl)]
        rw [Bool.and_eq_true, decide_eq_true_eq, decide_eq_true_eq]
        exact ⟨fun h => ⟨fun h0 => absurd h0 hj, fun _ => h.1, fun _ _ => h.2⟩, fun h => ⟨h.2.1 hj, h.2.2 hj hl⟩⟩
  refine ⟨(nl.zipIdx.map g).flatten, ?_, ?_, ?_⟩
  · unfold nlRoots
    simp only [hfilt]
    rw [mapM_ok_map _ g _ hstep]
    rfl
  · have hlen : nl.zipIdx.length ≤ p.xk.length + 1 := by
      rw [List.length_zipIdx, hnldef]; unfold cols
      refine (List.length_filter_le _ _).trans ((List.length_filter_le _ _).trans ?_)
      rw [List.length_range, hp.len]
    have : ∀ l : List (ℕ × ℕ), ((l.map g).flatten).length ≤ l.length * (p.n - 1) := by
      intro l
      induction l with
      | nil => simp
      | cons a l ih =>
        rw [List.map_cons, List.flatten_cons, List.length_append, List.length_cons, Nat.succ_mul]
        have : (g a).length ≤ p.n - 1 := by
          rw [hg]
          beta_reduce
          rw [List.length_map]
          refine (List.length_filter_le _ _).trans ((hE.len _ _).trans ?_)
          have := pieceDeg_lt hp a.1
          omega
        omega
    exact (this _).trans (Nat.mul_le_mul_right _ hlen)
  · intro x
    rw [List.mem_flatten]
    have heig : ∀ j, MayVanish p v j → 2 ≤ pieceDeg p j → ∀ t,
        t ∈ E (pieceDeg p j) (companion (pieceDeg p j) (sc p v j)) ↔ UnitRoot p v j t := by
      intro j hm hd t
      rw [hE.mem, companion_eig (by omega) _ (by rw [sc_getD hp v hm.1]; exact unitCoef_lead hp v (by omega)),
        unitRoot_iff hp v hm.1]
      simp only [sc_getD hp v hm.1]
    constructor
    · rintro ⟨l, hl, hx⟩
      obtain ⟨⟨j, i⟩, hji, rfl⟩ := List.mem_map.mp hl
      have hm := hmem j i hji
      rw [hg] at hx
      obtain ⟨t, htm, rfl⟩ := List.mem_map.mp hx
      rw [List.mem_filter] at htm
      refine ⟨j, t, hm.1, hm.2, (heig j hm.1 hm.2 t).mp htm.1, unscale_eq hp hm.1.1 t, (hok j i hji t).mp htm.2⟩
    · rintro ⟨j, t, hm, hd, hr, rfl, hf⟩
      have : j ∈ nl := by
        rw [hnldef, List.mem_filter, mem_cols hp hn, decide_eq_true_eq]; exact ⟨hm, hd⟩
      obtain ⟨i, hi⟩ := List.mem_iff_getElem?.mp this
      have hji := zipIdx_mem.mpr hi
      refine ⟨g (j, i), List.mem_map.mpr ⟨_, hji, rfl⟩, ?_⟩
      rw [hg]
      refine List.mem_map.mpr ⟨t, ?_, unscale_eq hp hm.1 t⟩
      rw [List.mem_filter]
      exact ⟨(heig j hm hd t).mpr hr, (hok j i hji t).mpr hf⟩

theorem dedupGo_subset (xk : List K) (tol prev : K) (l : List K) : ∀ x ∈ dedupGo xk tol prev l, x ∈ l := by
  induction l generalizing prev with
  | nil => simp [dedupGo]
  | cons b l ih =>
    intro x hx
    simp only [dedupGo] at hx
    split at hx
    · rcases List.mem_cons.mp hx with h | h
      · simp [h]
      · exact List.mem_cons_of_mem _ (ih b x h)
    · exact List.mem_cons_of_mem _ (ih b x hx)

theorem dedup_subset (xk : List K) (tol : K) (l : List K) : ∀ x ∈ dedup xk tol l, x ∈ l := by
  cases l with
  | nil => simp [dedup]
  | cons a l =>
    intro x hx
    rcases List.mem_cons.mp hx with h | h
    · simp [h]
    · exact List.mem_cons_of_mem _ (dedupGo_subset xk tol a l x h)

theorem dedupGo_near {xk : List K} (hne : xk ≠ []) {tol W : K} (ht : 0 ≤ tol) (hW : ∀ i ≤ xk.length, width xk i ≤ W)
    (hW0 : 0 ≤ W) (l : List K) : ∀ (prev r0 : K) (m : ℕ), (prev :: l).Pairwise (· ≤ ·) → r0 ≤ prev →
      prev - r0 ≤ m * (tol * W) → ∀ x ∈ l, ∃ r, (r = r0 ∨ r ∈ dedupGo xk tol prev l) ∧ r ≤ x ∧
        x - r ≤ (m + l.length : ℕ) * (tol * W) := by
  induction l with
  | nil => intro prev r0 m _ _ _ x hx; simp at hx
  | cons b l ih =>
    intro prev r0 m hs hr hd x hx
    have htw : 0 ≤ tol * W := mul_nonneg ht hW0
    rw [List.pairwise_cons] at hs
    have hpb := hs.1 b (by simp)
    simp only [dedupGo]
    by_cases hc : tol * ((1 / 2 : K) * ((dxs xk).getD (searchsorted xk b) 0 + (dxs xk).getD (searchsorted xk prev) 0)) < b - prev
    · simp only [if_pos hc]
      rcases List.mem_cons.mp hx with h | h
      · subst h
        refine ⟨x, Or.inr (by simp), le_rfl, ?_⟩
        rw [sub_self]; positivity
      · obtain ⟨r, h1, h2, h3⟩ := ih b b 0 hs.2 le_rfl (by simp) x h
        refine ⟨r, Or.inr ?_, h2, h3.trans ?_⟩
        · rcases h1 with h1 | h1
          · simp [h1]
          · exact List.mem_cons_of_mem _ h1
        · refine mul_le_mul_of_nonneg_right ?_ htw
          exact_mod_cast (by simp only [List.length_cons]; omega : 0 + l.length ≤ m + (b :: l).length)
    · simp only [if_neg hc]
      have hle : b - prev ≤ tol * W := by
        refine (not_lt.mp hc).trans (mul_le_mul_of_nonneg_left ?_ ht)
        rw [dxs_getD hne (searchsorted_le _ _), dxs_getD hne (searchsorted_le _ _)]
        have h1 := hW _ (searchsorted_le xk b)
        have h2 := hW _ (searchsorted_le xk prev)
        linarith
      have hbr : b - r0 ≤ (m + 1 : ℕ) * (tol * W) := by push_cast; linarith
      rcases List.mem_cons.mp hx with h | h
      · subst h
        refine ⟨r0, Or.inl rfl, hr.trans hpb, hbr.trans ?_⟩
        refine mul_le_mul_of_nonneg_right ?_ htw
        exact_mod_cast (by simp only [List.length_cons]; omega : m + 1 ≤ m + (x :: l).length)
      · obtain ⟨r, h1, h2, h3⟩ := ih b r0 (m + 1) hs.2 (hr.trans hpb) hbr x h
        refine ⟨r, h1, h2, ?_⟩
        rw [List.length_cons, show m + (l.length + 1) = m + 1 + l.length by ring]
        exact h3

theorem dedup_near {xk : List K} (hne : xk ≠ []) {tol W : K} (ht : 0 ≤ tol) (hW : ∀ i ≤ xk.length, width xk i ≤ W)
    (hW0 : 0 ≤ W) (l : List K) (hs : l.Pairwise (· ≤ ·)) (x : K) (hx : x ∈ l) :
    ∃ r ∈ dedup xk tol l, r ≤ x ∧ x - r ≤ (l.length : ℕ) * (tol * W) := by
  cases l with
  | nil => simp at hx
  | cons a l =>
    have htw : 0 ≤ tol * W := mul_nonneg ht hW0
    rcases List.mem_cons.mp hx with h | h
    · subst h
      exact ⟨x, by simp [dedup], le_rfl, by rw [sub_self]; positivity⟩
    · obtain ⟨r, h1, h2, h3⟩ := dedupGo_near hne ht hW hW0 l a a 0 hs le_rfl (by simp) x h
      refine ⟨r, ?_, h2, h3.trans ?_⟩
      · rcases h1 with h1 | h1
        · simp [dedup, h1]
        · exact List.mem_cons_of_mem _ h1
      · refine mul_le_mul_of_nonneg_right ?_ htw
        exact_mod_cast (by simp only [List.length_cons]; omega : 0 + l.length ≤ (a :: l).length)

theorem dedupGo_sorted (xk : List K) {tol : K} (l : List K) : ∀ prev : K, (prev :: l).Pairwise (· ≤ ·) →
    (dedupGo xk tol prev l).Pairwise (· ≤ ·) := by
  induction l with
  | nil => intro _ _; simp [dedupGo]
  | cons b l ih =>
    intro prev hs
    rw [List.pairwise_cons] at hs
    simp only [dedupGo]
    split
    · rw [List.pairwise_cons]
      refine ⟨fun x hx => ?_, ih b hs.2⟩
      exact (List.pairwise_cons.mp hs.2).1 x (dedupGo_subset _ _ _ _ x hx)
    · exact ih b hs.2

/-- Every two consecutive elements kept are more than `tol` times the smallest width apart. -/
theorem dedupGo_sep {xk : List K} (hne : xk ≠ []) {tol w : K} (ht : 0 ≤ tol) (hw : ∀ i ≤ xk.length, w ≤ width xk i)
    (l : List K) : ∀ prev : K, (prev :: l).Pairwise (· ≤ ·) →
      (∀ x ∈ dedupGo xk tol prev l, tol * w < x - prev) ∧ (dedupGo xk tol prev l).Pairwise (fun a b => tol * w < b - a) := by
  induction l with
  | nil => intro _ _; simp [dedupGo]
  | cons b l ih =>
    intro prev hs
    rw [List.pairwise_cons] at hs
    have hpb := hs.1 b (by simp)
    obtain ⟨h1, h2⟩ := ih b hs.2
    simp only [dedupGo]
    split
    · next hc =>
      have hlt : tol * w < b - prev := by
        refine lt_of_le_of_lt (mul_le_mul_of_nonneg_left ?_ ht) hc
        rw [dxs_getD hne (searchsorted_le _ _), dxs_getD hne (searchsorted_le _ _)]
        have h1 := hw _ (searchsorted_le xk b)
        have h2 := hw _ (searchsorted_le xk prev)
        linarith
      constructor
      · intro x hx
        rcases List.mem_cons.mp hx with h | h
        · rw [h]; exact hlt
        · have := h1 x h; linarith
      · rw [List.pairwise_cons]
        exact ⟨h1, h2⟩
    · constructor
      · intro x hx
        have := h1 x hx
        linarith
      · exact h2

theorem dedup_sep {xk : List K} (hne : xk ≠ []) {tol w : K} (ht : 0 ≤ tol) (hw : ∀ i ≤ xk.length, w ≤ width xk i)
    (l : List K) (hs : l.Pairwise (· ≤ ·)) : (dedup xk tol l).Pairwise (fun a b => tol * w < b - a) := by
  cases l with
  | nil => simp [dedup]
  | cons a l =>
    obtain ⟨h1, h2⟩ := dedupGo_sep hne ht hw l a hs
    exact List.pairwise_cons.mpr ⟨h1, h2⟩

end Npplus
