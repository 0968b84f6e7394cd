import Verif.Props.NumPartials

/-!
# C45: levmar does not make the fit worse
-/

set_option linter.unusedSectionVars false
namespace Npplus
open Npplus.Spec

namespace Spec
variable {K : Type} [Field K] [LinearOrder K]

/-- `sum(((data - f(q))/errs)**2)`; `errs` is one value or one value per datum (non-zero values are meant). -/
def lmChisq (A : LmArgs K) (V : List K → List K) (q : List K) : K :=
  ∑ t ∈ Finset.range A.data.length, ((A.data.getD t 0 - (V q).getD t 0) / elem1 A.errs t) ^ 2

end Spec

variable {K : Type} [Field K] [LinearOrder K] [IsStrictOrderedRing K]

theorem list_sum_getD (l : List K) : l.sum = ∑ i ∈ Finset.range l.length, l.getD i 0 := by
  induction l with
  | nil => rfl
  | cons a l ih =>
    rw [List.length_cons, Finset.sum_range_succ']
    simp only [List.getD_cons_succ, List.getD_cons_zero, List.sum_cons]
    rw [ih, add_comm]

theorem zipWith_sum (f : K → K → K) (a b : List K) (h : a.length = b.length) :
    (List.zipWith f a b).sum = ∑ i ∈ Finset.range a.length, f (a.getD i 0) (b.getD i 0) := by
  rw [list_sum_getD]
  simp only [List.length_zipWith, ← h, min_self]
  refine Finset.sum_congr rfl fun i hi => ?_
  rw [Finset.mem_range] at hi
  exact getD_zipWith2 f a b i 0 0 0 hi (by rw [← h]; exact hi)

section
variable {A : LmArgs K} {F : UserF K} {solve : List (List K) → List K → Except PyErr (List K)} {E : LmEnv K}
  {V : List K → List K}

/-- Both expressions for `chi2` in the program give `lmChisq`. -/
theorem chi_eq (h : EnvOf A F solve E) {q v dm w1 w : List K} (hv : v = V q) (hl : v.length = A.data.length)
    (h1 : bzip (· - ·) E.data v = .ok dm) (h2 : bzip (· * ·) E.wgt dm = .ok w1) (h3 : bzip (· * ·) w1 dm = .ok w) :
    w.sum = lmChisq A V q := by
  have e1 := bzip_length h1 (by rw [h.data, hl])
  have l1 : dm.length = A.data.length := by rw [e1]; simp [h.data, hl]
  have e2 := bzip_length h2 (by rw [h.wgt.1, l1])
  have l2 : w1.length = A.data.length := by rw [e2]; simp [h.wgt.1, l1]
  have e3 := bzip_length h3 (by rw [l2, l1])
  rw [e3, zipWith_sum _ _ _ (by rw [l2, l1]), l2]
  refine Finset.sum_congr rfl fun t ht => ?_
  rw [Finset.mem_range] at ht
  rw [e2, getD_zipWith2 _ _ _ t 0 0 _ (by rw [h.wgt.1]; exact ht) (by rw [l1]; exact ht), h.wgt.2 t ht, e1,
    getD_zipWith2 _ _ _ t 0 0 _ (by rw [h.data]; exact ht) (by rw [hl]; exact ht), h.data, hv, div_pow]
  ring

theorem lmChisq_nonneg (A : LmArgs K) (V : List K → List K) (q : List K) : 0 ≤ lmChisq A V q :=
  Finset.sum_nonneg fun _ _ => sq_nonneg _

/-- The trivial invariant: the number of free parameters. -/
theorem lmInv_true (hE : EnvOK E) : LmInv E (fun _ => True) (fun p => p.length = E.pmask.countP id) where
  clip := fun s hs => hE.clip_length hs
  len := fun _ h => h
  full := fun _ _ => trivial
  num := fun _ _ _ _ _ _ _ => trivial

theorem inner_chi (h : EnvOf A F solve E) (hs : SolveLen solve) (hV : PureF F V A.data.length)
    {alpha : List (List K)} {beta p1 : List K} {chi2p : K}
    (hp1 : p1.length = E.pmask.countP id) (hb : beta.length = E.pmask.countP id) (hc : chi2p = lmChisq A V (E.full p1)) :
    ∀ fuel lam, Tri (fun _ => True) (E.inner alpha beta p1 chi2p fuel lam) (fun r => r.1.length = E.pmask.countP id ∧
      r.2.1 = lmChisq A V (E.full r.1) ∧ r.2.1 ≤ 1000001 / 1000000 * chi2p)
  | 0, lam => Tri.fail
  | fuel + 1, lam => by
    have hE := h.ok hs
    unfold LmEnv.inner
    refine Tri.bind (P := fun x => x.length = E.pmask.countP id)
      (Tri.lift fun x hx => by rw [hE.solve _ _ _ hx, hb]) fun x hx => ?_
    refine Tri.bind (P := fun s => s.length = E.pmask.countP id)
      (Tri.lift fun s hs => by rw [bzip_length hs (by rw [hp1, hx])]; simp [hp1, hx]) fun s hsl => ?_
    refine Tri.bind (chi2At_tri (lmInv_true hE) (hE.clip_length hsl)) fun c hc' => ?_
    obtain ⟨log, v, dm, w1, w, hv, h1, h2, h3, rfl⟩ := hc'
    rw [h.F, hV.1] at hv
    have hv := (Except.ok.inj hv).symm
    have hw := chi_eq h hv (by rw [hv, hV.2]) h1 h2 h3
    refine Tri.ite (fun hor => Tri.ret ⟨hE.clip_length hsl, hw, ?_⟩) fun _ => Tri.ite (fun _ => Tri.fail) fun _ => ?_
    · have hn : 0 ≤ chi2p := by rw [hc]; exact lmChisq_nonneg A V _
      rcases hor with h4 | h4
      · exact h4.le
      · have : w.sum = chi2p := by rw [hw, hc, h4]
        simp only
        rw [this]; nlinarith
    · exact Tri.bind (inner_chi h hs hV hp1 hb hc fuel _) fun r hr => Tri.ret hr

/-- What is known about the path of the iteration when the main loop is entered. -/
structure PathOK (A : LmArgs K) (V : List K → List K) (E : LmEnv K) (st : LmState K) : Prop where
  len : st.p.length = E.pmask.countP id
  zero : st.niter = 0 → st.path = [] ∧ E.full st.p = A.p0
  pos : st.niter ≠ 0 → st.chi2 = lmChisq A V (E.full st.p) ∧ st.chi20 = lmChisq A V A.p0 ∧
    (∃ l, st.path = l ++ [A.p0]) ∧ ∀ q ∈ st.path, st.chi2 < lmChisq A V q
  mono : (st.path.map (lmChisq A V)).Pairwise (· < ·)

/-- and when it is left -/
structure EndOK (A : LmArgs K) (V : List K → List K) (E : LmEnv K) (st : LmState K) : Prop where
  chi2 : st.chi2 = lmChisq A V (E.full st.p)
  chi20 : st.chi20 = lmChisq A V A.p0
  path : ∃ q l, st.path = q :: l ∧ st.chi2 ≤ 1000001 / 1000000 * lmChisq A V q
  first : ∃ l, st.path = l ++ [A.p0]
  mono : (st.path.map (lmChisq A V)).Pairwise (· < ·)

theorem outer_chi (h : EnvOf A F solve E) (hs : SolveLen solve) (hV : PureF F V A.data.length) (htol : 0 ≤ A.cfg.tol)
    (inFuel : ℕ) : ∀ fuel st, PathOK A V E st → Tri (fun _ => True) (E.outer inFuel fuel st) (EndOK A V E)
  | 0, st, _ => Tri.fail
  | fuel + 1, st, hst => by
    have hE := h.ok hs
    unfold LmEnv.outer
    refine Tri.bind (g_tri hE (lmInv_true hE) hst.len) fun gv hgv => ?_
    obtain ⟨hgl, log, hgv⟩ := hgv
    rw [h.F, hV.1] at hgv
    have hgv := (Except.ok.inj hgv).symm
    refine Tri.bind (P := fun dm => bzip (· - ·) E.data gv.1 = .ok dm) (Tri.lift fun _ h => h) fun dm hdm => ?_
    refine Tri.bind (P := fun b => bzip (· * ·) E.wgt dm = .ok b) (Tri.lift fun _ h => h) fun beta hbeta => ?_
    refine Tri.bind (P := fun c => bzip (· * ·) beta dm = .ok c) (Tri.lift fun _ h => h) fun c hc => ?_
    have hcs : c.sum = lmChisq A V (E.full st.p) := chi_eq h hgv (by rw [hgv, hV.2]) hdm hbeta hc
    have hchi : (if st.niter = 0 then c.sum else st.chi2) = lmChisq A V (E.full st.p) := by
      split_ifs with h0
      · exact hcs
      · exact (hst.pos h0).1
    have hchi0 : (if st.niter = 0 then c.sum else st.chi20) = lmChisq A V A.p0 := by
      split_ifs with h0
      · rw [hcs, (hst.zero h0).2]
      · exact (hst.pos h0).2.1
    have hfirst : ∃ l, E.full st.p :: st.path = l ++ [A.p0] := by
      by_cases h0 : st.niter = 0
      · exact ⟨[], by rw [(hst.zero h0).1, (hst.zero h0).2]; rfl⟩
      · obtain ⟨l, hl⟩ := (hst.pos h0).2.2.1
        exact ⟨E.full st.p :: l, by rw [hl]; rfl⟩
    have hmono : ((E.full st.p :: st.path).map (lmChisq A V)).Pairwise (· < ·) := by
      rw [List.map_cons, List.pairwise_cons]
      refine ⟨fun y hy => ?_, hst.mono⟩
      obtain ⟨q, hq, rfl⟩ := List.mem_map.1 hy
      by_cases h0 : st.niter = 0
      · rw [(hst.zero h0).1] at hq; simp at hq
      · rw [← (hst.pos h0).1]; exact (hst.pos h0).2.2.2 q hq
    simp only [hchi, hchi0]
    refine Tri.bind (P := fun ba => ba.1.length = E.pmask.countP id) (Tri.lift fun ba hba => ?_) fun ba hba => ?_
    · rw [← (normalEqs_ok hba).1.length_eq, hgl]
    have hnn := lmChisq_nonneg A V (E.full st.p)
    refine Tri.ite (fun h0 => Tri.ret ⟨rfl, rfl, ⟨_, _, rfl, ?_⟩, hfirst, hmono⟩) fun hne => ?_
    · simp only; nlinarith
    refine Tri.bind (inner_chi h hs hV hst.len hba rfl _ _) fun r hr => ?_
    obtain ⟨hr1, hr2, hr3⟩ := hr
    refine Tri.ite (fun _ => Tri.ret ⟨hr2, rfl, ⟨_, _, rfl, hr3⟩, hfirst, hmono⟩) fun hconv => ?_
    refine Tri.ite (fun _ => Tri.ret ⟨hr2, rfl, ⟨_, _, rfl, hr3⟩, hfirst, hmono⟩) fun _ => ?_
    have hlt : r.2.1 < lmChisq A V (E.full st.p) := by
      have hr0 : 0 ≤ r.2.1 := by rw [hr2]; exact lmChisq_nonneg A V _
      have hpos : 0 < lmChisq A V (E.full st.p) := lt_of_le_of_ne hnn (Ne.symm hne)
      rw [h.cfg, not_le] at hconv
      by_contra hle
      rw [not_lt] at hle
      have : (lmChisq A V (E.full st.p) - r.2.1) / (lmChisq A V (E.full st.p) + r.2.1) ≤ 0 :=
        div_nonpos_of_nonpos_of_nonneg (by linarith) (by linarith)
      linarith
    refine outer_chi h hs hV htol inFuel fuel _ ⟨hr1, fun h0 => absurd h0 (Nat.succ_ne_zero _), fun _ =>
      ⟨hr2, rfl, hfirst, fun q hq => ?_⟩, hmono⟩
    rw [List.mem_cons] at hq
    rcases hq with rfl | hq
    · exact hlt
    · have := List.pairwise_cons.1 (show List.Pairwise (· < ·) (lmChisq A V (E.full st.p) :: st.path.map (lmChisq A V)) from hmono)
      exact hlt.trans (this.1 _ (List.mem_map_of_mem hq))

theorem pathOK_init (h : EnvOf A F solve E) : PathOK A V E E.init where
  len := maskGet_length _ _ (by rw [h.mask_len, h.p0])
  zero := fun _ => ⟨rfl, by
    unfold LmEnv.full LmEnv.init
    rw [h.p0]
    exact maskSet_maskGet _ _ (by rw [h.mask_len])⟩
  pos := fun h0 => absurd rfl h0
  mono := List.Pairwise.nil

theorem levmar_post {Q : LmFit K → Prop} {inv : List (List K) → Except PyErr (List (List K))} {fo fi : ℕ}
    (hQ : ∀ E, A.env F solve = .ok E → ∃ P, Tri (fun _ => True) (E.outer fi fo E.init) P ∧
      ∀ st r, P st → E.finish inv st = .ok r → Q r) {r : LmFit K} (hr : (levmar A F solve inv fo fi).1 = .ok r) : Q r := by
  unfold levmar at hr
  cases hE : A.env F solve with
  | error e => rw [hE] at hr; cases hr
  | ok E =>
    rw [hE] at hr
    obtain ⟨P, h1, h2⟩ := hQ E hE
    have h3 : Tri (fun _ => True) (E.outer fi fo E.init >>= fun st => Run.lift (E.finish inv st)) Q :=
      Tri.bind h1 fun st hst => Tri.lift fun r hr => h2 st r hst hr
    exact (h3 [] (by simp)).2 r hr

/-- **C45.**  For every plain model function `V`, data, errors, `p0`, bounds, fixed parameters and configuration with
`tol ≥ 0`: the `chi2` of the successive points at which levmar evaluates the gradient decreases strictly, starting at
`p0`; the returned parameters are at most a factor 1.000001 worse than the last of them, hence also than `p0`; the
reported `chi2` and `chi20` are those of the returned and of the initial parameters, per degree of freedom. -/
theorem C45_no_worse (hs : SolveLen solve) (hV : PureF F V A.data.length) (htol : 0 ≤ A.cfg.tol)
    {inv : List (List K) → Except PyErr (List (List K))} {fo fi : ℕ} {r : LmFit K}
    (hr : (levmar A F solve inv fo fi).1 = .ok r) :
    lmChisq A V r.p ≤ 1000001 / 1000000 * lmChisq A V A.p0 ∧
    (r.path.map (lmChisq A V)).Pairwise (· < ·) ∧ r.path.getLast? = some A.p0 ∧
    (∃ q, r.path.head? = some q ∧ lmChisq A V r.p ≤ 1000001 / 1000000 * lmChisq A V q) ∧
    r.chi2 = lmChisq A V r.p / r.ndof ∧ r.chi20 = lmChisq A V A.p0 / r.ndof := by
  refine levmar_post (Q := fun r => lmChisq A V r.p ≤ 1000001 / 1000000 * lmChisq A V A.p0 ∧
    (r.path.map (lmChisq A V)).Pairwise (· < ·) ∧ r.path.getLast? = some A.p0 ∧
    (∃ q, r.path.head? = some q ∧ lmChisq A V r.p ≤ 1000001 / 1000000 * lmChisq A V q) ∧
    r.chi2 = lmChisq A V r.p / r.ndof ∧ r.chi20 = lmChisq A V A.p0 / r.ndof) (fun E hE => ?_) hr
  have h := env_ok hE
  refine ⟨EndOK A V E, outer_chi h hs hV htol fi fo E.init (pathOK_init h), fun st r hst hfin => ?_⟩
  unfold LmEnv.finish at hfin
  simp only [bind, Except.bind, pure, Except.pure] at hfin
  split at hfin
  · cases hfin
  cases hfin
  obtain ⟨q, l, hp, hq⟩ := hst.path
  obtain ⟨l', hl'⟩ := hst.first
  have hle : lmChisq A V q ≤ lmChisq A V A.p0 := by
    have hm := hst.mono
    rw [hp] at hl' hm
    rw [List.map_cons, List.pairwise_cons] at hm
    cases l' with
    | nil => cases hl'; exact le_refl _
    | cons a l' =>
      have e : l = l' ++ [A.p0] := by simpa using (List.cons.inj hl').2
      exact (hm.1 _ (List.mem_map_of_mem (by rw [e]; simp))).le
  rw [hst.chi2] at hq
  refine ⟨hq.trans (by linarith), hst.mono, by simp only; rw [hl']; simp, ⟨q, by simp only; rw [hp]; rfl, hq⟩, ?_, ?_⟩
  · rw [← hst.chi2]
  · rw [← hst.chi20]

/-! ### the log of calls -/

/-- `m` only appends to the log; started with a log that satisfies `P`, its value and final log satisfy `Q`. -/
def HT {α : Type} (P : List (List K) → Prop) (m : Run K α) (Q : α → List (List K) → Prop) : Prop :=
  ∀ log, P log → log <+: (m log).2 ∧ ∀ a, (m log).1 = .ok a → Q a (m log).2

theorem HT.bind {α β : Type} {P : List (List K) → Prop} {R : α → List (List K) → Prop} {Q : β → List (List K) → Prop}
    {m : Run K α} {k : α → Run K β} (hm : HT P m R) (hk : ∀ a, HT (R a) (k a) Q) : HT P (m >>= k) Q := by
  intro log hl
  have h := hm log hl
  change log <+: (Run.andThen m k log).2 ∧ ∀ a, (Run.andThen m k log).1 = .ok a → Q a (Run.andThen m k log).2
  unfold Run.andThen
  rcases hml : m log with ⟨r, log'⟩
  rw [hml] at h
  cases r with
  | error s => exact ⟨h.1, fun a ha => by cases ha⟩
  | ok a =>
    have h2 := hk a log' (h.2 a rfl)
    exact ⟨h.1.trans h2.1, h2.2⟩

theorem HT.ret {α : Type} {P : List (List K) → Prop} {Q : α → List (List K) → Prop} {a : α} (h : ∀ l, P l → Q a l) :
    HT P (Run.ret a) Q := fun log hl => ⟨List.prefix_refl _, fun b hb => by cases hb; exact h log hl⟩

theorem HT.fail {α : Type} {P : List (List K) → Prop} {Q : α → List (List K) → Prop} {s : Stop} :
    HT P (Run.fail s) Q := fun log _ => ⟨List.prefix_refl _, fun b hb => by cases hb⟩

theorem HT.lift {α : Type} {P : List (List K) → Prop} {e : Except PyErr α} :
    HT P (Run.lift e) (fun _ => P) := fun log hl => by
  unfold Run.lift
  cases e with
  | error s => exact ⟨List.prefix_refl _, fun b hb => by cases hb⟩
  | ok a => exact ⟨List.prefix_refl _, fun b hb => hl⟩

theorem HT.ite {α : Type} {P : List (List K) → Prop} {Q : α → List (List K) → Prop} {c : Prop} [Decidable c]
    {m m' : Run K α} (h : HT P m Q) (h' : HT P m' Q) : HT P (if c then m else m') Q := by
  split_ifs
  · exact h
  · exact h'

/-- closed under further calls -/
def Up (P : List (List K) → Prop) : Prop := ∀ l l', P l → l <+: l' → P l'

theorem HT.call {P : List (List K) → Prop} (hP : Up P) {F : UserF K} {p : List K} :
    HT P (F.call p) (fun _ l => P l ∧ p ∈ l) := fun log hl => by
  unfold UserF.call
  cases F.val log p with
  | error s => exact ⟨List.prefix_append _ _, fun b hb => by cases hb⟩
  | ok a => exact ⟨List.prefix_append _ _, fun b hb => ⟨hP _ _ hl (List.prefix_append _ _), by simp⟩⟩

theorem HT.callGen {P : List (List K) → Prop} (hP : Up P) {F : UserF K} {p : List K} :
    HT P (F.callGen p) (fun _ l => P l ∧ p ∈ l) := fun log hl => by
  unfold UserF.callGen
  cases F.val log p with
  | error s => exact ⟨List.prefix_append _ _, fun b hb => by cases hb⟩
  | ok a =>
    cases F.dval log p with
    | error s => exact ⟨List.prefix_append _ _, fun b hb => by cases hb⟩
    | ok d => exact ⟨List.prefix_append _ _, fun b hb => ⟨hP _ _ hl (List.prefix_append _ _), by simp⟩⟩

theorem HT.weaken {α : Type} {P : List (List K) → Prop} {Q Q' : α → List (List K) → Prop} {m : Run K α} (h : HT P m Q)
    (hQ : ∀ a l, Q a l → Q' a l) : HT P m Q' := fun log hl => ⟨(h log hl).1, fun a ha => hQ _ _ ((h log hl).2 a ha)⟩

theorem partialsLoop_ht {P : List (List K) → Prop} (hP : Up P) (F : UserF K) (pfull f0 : List K) (pmask : List Bool) (p : List K) :
    ∀ (ds : List K) (i : ℕ), HT P (partialsLoop F pfull f0 pmask p ds i) (fun _ => P)
  | [], i => HT.ret fun _ h => h
  | d :: ds, i => by
    unfold partialsLoop
    refine HT.ite HT.fail (HT.bind (HT.weaken (HT.call hP) fun _ _ h => h.1) fun v => HT.bind HT.lift fun dv => ?_)
    exact HT.bind (partialsLoop_ht hP F pfull f0 pmask p ds (i + 1)) fun rest => HT.ret fun _ h => h

theorem up_mem {P : List (List K) → Prop} (hP : Up P) (p : List K) : Up (fun l => P l ∧ p ∈ l) :=
  fun _ _ h hl => ⟨hP _ _ h.1 hl, hl.subset h.2⟩

theorem g_ht {P : List (List K) → Prop} (hP : Up P) (p : List K) : HT P (E.g p) (fun _ l => P l ∧ E.full p ∈ l) := by
  unfold LmEnv.g
  refine HT.ite ?_ ?_
  · exact HT.bind (HT.callGen hP) fun r => HT.ite HT.fail (HT.ret fun _ h => h)
  · refine HT.bind (HT.call hP) fun f0 => HT.bind (R := fun _ l => P l ∧ E.full p ∈ l) ?_ fun rows => HT.ret fun _ h => h
    unfold numericalPartials
    exact HT.bind HT.lift fun dp => partialsLoop_ht (up_mem hP _) _ _ _ _ _ _ _

theorem chi2At_ht {P : List (List K) → Prop} (hP : Up P) (p : List K) : HT P (E.chi2At p) (fun _ => P) := by
  unfold LmEnv.chi2At
  refine HT.bind (HT.weaken (HT.call hP) fun _ _ h => h.1) fun v => ?_
  exact HT.bind HT.lift fun _ => HT.bind HT.lift fun _ => HT.bind HT.lift fun _ => HT.ret fun _ h => h

theorem inner_ht {P : List (List K) → Prop} (hP : Up P) {alpha : List (List K)} {beta p1 : List K} {chi2p : K} :
    ∀ fuel lam, HT P (E.inner alpha beta p1 chi2p fuel lam) (fun _ => P)
  | 0, lam => HT.fail
  | fuel + 1, lam => by
    unfold LmEnv.inner
    refine HT.bind HT.lift fun _ => HT.bind HT.lift fun _ => HT.bind (chi2At_ht hP _) fun c => ?_
    exact HT.ite (HT.ret fun _ h => h) (HT.ite HT.fail (HT.bind (inner_ht hP fuel _) fun _ => HT.ret fun _ h => h))

theorem outer_ht (inFuel : ℕ) : ∀ fuel st path, path = st.path →
    HT (fun l => ∀ q ∈ path, q ∈ l) (E.outer inFuel fuel st) (fun st' l => ∀ q ∈ st'.path, q ∈ l)
  | 0, st, _, _ => HT.fail
  | fuel + 1, st, _, rfl => by
    have hP : Up (fun l => ∀ q ∈ st.path, q ∈ l) := fun l l' h hl q hq => hl.subset (h q hq)
    have hP' : Up (fun l => ∀ q ∈ E.full st.p :: st.path, q ∈ l) := fun l l' h hl q hq => hl.subset (h q hq)
    unfold LmEnv.outer
    refine HT.bind (HT.weaken (Q' := fun _ l => ∀ q ∈ E.full st.p :: st.path, q ∈ l) (g_ht hP st.p) fun _ l h q hq => ?_)
      fun gv => ?_
    · rcases List.mem_cons.1 hq with rfl | hq
      · exact h.2
      · exact h.1 q hq
    refine HT.bind HT.lift fun _ => HT.bind HT.lift fun _ => HT.bind HT.lift fun _ => HT.bind HT.lift fun ba => ?_
    refine HT.ite (HT.ret fun _ h => h) (HT.bind (inner_ht hP' _ _) fun r => ?_)
    refine HT.ite (HT.ret fun _ h => h) (HT.ite (HT.ret fun _ h => h) ?_)
    exact outer_ht inFuel fuel _ _ rfl

/-- **C45** (continued).  The points of that path are parameters with which `f` was really called. -/
theorem C45_path_called {inv : List (List K) → Except PyErr (List (List K))} {fo fi : ℕ} {r : LmFit K}
    (hr : (levmar A F solve inv fo fi).1 = .ok r) : ∀ q ∈ r.path, q ∈ (levmar A F solve inv fo fi).2 := by
  unfold levmar at hr ⊢
  cases hE : A.env F solve with
  | error e => rw [hE] at hr; cases hr
  | ok E =>
    rw [hE] at hr
    have h : HT (fun l => ∀ q ∈ E.init.path, q ∈ l) (E.outer fi fo E.init >>= fun st => Run.lift (E.finish inv st))
        (fun r l => ∀ q ∈ r.path, q ∈ l) := by
      refine HT.bind (outer_ht fi fo E.init _ rfl) fun st => ?_
      intro log hl
      refine ⟨(HT.lift (P := fun _ => True) log trivial).1, fun a ha => ?_⟩
      unfold Run.lift at ha ⊢
      cases hfin : E.finish inv st with
      | error e => rw [hfin] at ha; cases ha
      | ok b =>
        rw [hfin] at ha
        cases ha
        unfold LmEnv.finish at hfin
        simp only [bind, Except.bind, pure, Except.pure] at hfin
        split at hfin
        · cases hfin
        · cases hfin; exact hl
    exact (h [] (by simp [LmEnv.init])).2 r hr

theorem prefix_bind {α β : Type} {m : Run K α} {k : α → Run K β} {pre log : List (List K)} (h1 : pre <+: (m log).2)
    (h2 : ∀ a, HT (fun _ => True) (k a) (fun _ _ => True)) : pre <+: ((m >>= k) log).2 := by
  change pre <+: (Run.andThen m k log).2
  unfold Run.andThen
  rcases hml : m log with ⟨r, log'⟩
  rw [hml] at h1
  cases r with
  | error s => exact h1
  | ok a => exact h1.trans (h2 a log' trivial).1

/-- **C43** (the proviso).  `p0` itself is not clipped: unless levmar raises before calling `f` at all, the first call
is with `p0`, whatever the bounds are. -/
theorem C43_first_call (inv : List (List K) → Except PyErr (List (List K))) (fo fi : ℕ) (hfo : 0 < fo)
    (hE : ∃ E, A.env F solve = .ok E) : (levmar A F solve inv fo fi).2.head? = some A.p0 := by
  obtain ⟨E, hE⟩ := hE
  have h := env_ok hE
  obtain ⟨n, rfl⟩ : ∃ n, fo = n + 1 := ⟨fo - 1, by omega⟩
  have hfull : E.full E.init.p = A.p0 := ((pathOK_init (V := fun _ => []) h).zero rfl).2
  have hup : Up (K := K) (fun _ => True) := fun _ _ _ _ => trivial
  have hg : [A.p0] <+: (E.g E.init.p []).2 := by
    unfold LmEnv.g
    rw [hfull]
    split_ifs
    · refine prefix_bind ?_ fun a => HT.ite HT.fail (HT.ret fun _ _ => trivial)
      unfold UserF.callGen
      cases E.F.val [] A.p0 with
      | error s => exact List.prefix_refl _
      | ok v =>
        cases E.F.dval [] A.p0 with
        | error s => exact List.prefix_refl _
        | ok d => exact List.prefix_refl _
    · refine prefix_bind ?_ fun a => HT.bind (R := fun _ _ => True) ?_ fun rows => HT.ret fun _ _ => trivial
      · unfold UserF.call
        cases E.F.val [] A.p0 with
        | error s => exact List.prefix_refl _
        | ok v => exact List.prefix_refl _
      · unfold numericalPartials
        exact HT.bind HT.lift fun dp => partialsLoop_ht hup _ _ _ _ _ _ _
  have hrest : ∀ fuel st,
      HT (fun _ => True) (E.outer fi fuel st) (fun _ _ => True) := by
    intro fuel
    induction fuel with
    | zero => exact fun st => HT.fail
    | succ fuel ih =>
      intro st
      unfold LmEnv.outer
      refine HT.bind (HT.weaken (Q' := fun _ _ => True) (g_ht hup st.p) fun _ _ _ => trivial) fun gv => ?_
      refine HT.bind HT.lift fun _ => HT.bind HT.lift fun _ => HT.bind HT.lift fun _ => HT.bind HT.lift fun ba => ?_
      refine HT.ite (HT.ret fun _ h => h) (HT.bind (inner_ht hup _ _) fun r => ?_)
      refine HT.ite (HT.ret fun _ h => h) (HT.ite (HT.ret fun _ h => h) ?_)
      exact ih _
  have key : [A.p0] <+: (levmar A F solve inv (n + 1) fi).2 := by
    unfold levmar
    rw [hE]
    refine prefix_bind ?_ fun st => HT.weaken HT.lift fun _ _ _ => trivial
    rw [LmEnv.outer]
    refine prefix_bind hg fun gv => ?_
    refine HT.bind HT.lift fun _ => HT.bind HT.lift fun _ => HT.bind HT.lift fun _ => HT.bind HT.lift fun ba => ?_
    refine HT.ite (HT.ret fun _ h => h) (HT.bind (inner_ht hup _ _) fun r => ?_)
    refine HT.ite (HT.ret fun _ h => h) (HT.ite (HT.ret fun _ h => h) ?_)
    exact hrest _ _
  obtain ⟨t, ht⟩ := key
  rw [← ht]; rfl

end

end Npplus
