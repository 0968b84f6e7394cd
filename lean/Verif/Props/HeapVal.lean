import Verif.Props.Heap
import Verif.Model.PerArith
import Verif.Lemmas.NdArr
import Verif.Props.PerArith

/-!
# Property C103: operations on shared arrays compute the same functions as operations on values

The model of C98 (arrays in a shared memory) and the models of the other properties (PwPoly objects as values) agree: whatever happened
before, the components of the result of an operation are those computed by the models with values from the components of the operands.
-/

set_option linter.unusedSectionVars false
namespace Npplus.Heap

section
variable {K : Type} [Field K] [LinearOrder K]

/-- one component of an object as a value of the other models -/
def St.den (st : St K) (o : Obj K) (idx : List ℕ) : SplineOut K K :=
  if o.per then .per ⟨st.value o idx, some (o.xk.getD (o.xk.length - 1) 0 - o.xk.getD 0 0)⟩ else .pw (st.value o idx)

/-- Started in `st` the program keeps what is below `N`, and raises the same exception as `v` or returns something related to `v`. -/
def Ref {α β : Type} (N : ℕ) (st : St K) (x : M K α) (v : Except PyErr β) (R : α → β → St K → Prop) : Prop :=
  Keeps N st (x st).2 ∧ match (x st).1, v with
    | .ok a, .ok b => R a b (x st).2
    | .error e, .error e' => e = e'
    | _, _ => False

theorem Ref.bind {α β γ δ : Type} {N : ℕ} {st : St K} {x : M K α} {v : Except PyErr β} {R : α → β → St K → Prop} {f : α → M K γ}
    {g : β → Except PyErr δ} {R' : γ → δ → St K → Prop} (h : Ref N st x v R)
    (h' : ∀ a b st', Keeps N st st' → v = .ok b → R a b st' → Ref N st' (f a) (g b) R') : Ref N st (x >>= f) (v >>= g) R' := by
  unfold Ref at h ⊢
  rw [run_bind]
  rcases hx : x st with ⟨e | a, st'⟩ <;> rw [hx] at h
  · rcases v with e' | b
    · obtain ⟨h1, h2⟩ := h
      exact ⟨h1, h2⟩
    · exact h.2.elim
  · rcases v with e' | b
    · exact h.2.elim
    · have := h' a b st' h.1 rfl h.2
      exact ⟨h.1.trans this.1, this.2⟩

theorem Ref.pure {α β : Type} {N : ℕ} {st : St K} {a : α} {b : β} {R : α → β → St K → Prop} (h : R a b st) : Ref N st (pure a) (.ok b) R :=
  ⟨Keeps.refl _ _, h⟩

theorem Ref.throw {α β : Type} {N : ℕ} {st : St K} {e : PyErr} {R : α → β → St K → Prop} : Ref N st (throw e : M K α) (.error e) R :=
  ⟨Keeps.refl _ _, rfl⟩

theorem Ref.mono {α β : Type} {N : ℕ} {st : St K} {x : M K α} {v : Except PyErr β} {R R' : α → β → St K → Prop} (h : Ref N st x v R)
    (hR : ∀ a b st', Keeps N st st' → v = .ok b → R a b st' → R' a b st') : Ref N st x v R' := by
  unfold Ref at h ⊢
  rcases hx : x st with ⟨e | a, st'⟩ <;> rw [hx] at h <;> rcases v with e' | b
  · exact h
  · exact h.2.elim
  · exact h.2.elim
  · exact ⟨h.1, hR a b st' h.1 rfl h.2⟩

theorem Ref.weaken {α β : Type} {N N' : ℕ} {st : St K} {x : M K α} {v : Except PyErr β} {R : α → β → St K → Prop} (h : Ref N' st x v R) (hN : N ≤ N') :
    Ref N st x v fun a b s => R a b s ∧ Keeps N' st s := by
  unfold Ref at h ⊢
  rcases hx : x st with ⟨e | a, st'⟩ <;> rw [hx] at h <;> rcases v with e' | b
  · exact ⟨h.1.weaken hN, h.2⟩
  · exact h.2.elim
  · exact h.2.elim
  · exact ⟨h.1.weaken hN, h.2, h.1⟩

theorem Ref.congr {α β : Type} {N : ℕ} {st : St K} {x x' : M K α} {v : Except PyErr β} {R : α → β → St K → Prop} (h : x st = x' st)
    (h' : Ref N st x' v R) : Ref N st x v R := by
  unfold Ref at h' ⊢
  rw [h]
  exact h'

/-- a program that never raises -/
theorem Ref.of_tri {α γ δ : Type} {N : ℕ} {st : St K} {x : M K α} {Q : α → St K → Prop} {f : α → M K γ} {v : Except PyErr δ}
    {R' : γ → δ → St K → Prop} (h : Tri N st x Q) (hok : ∃ a, (x st).1 = .ok a)
    (h' : ∀ a st', Keeps N st st' → Q a st' → Ref N st' (f a) v R') : Ref N st (x >>= f) v R' := by
  obtain ⟨a, ha⟩ := hok
  unfold Ref
  rw [run_bind]
  rcases hx : x st with ⟨e | a', st'⟩
  · rw [hx] at ha; cases ha
  · unfold Tri at h
    rw [hx] at h
    have := h' a' st' h.1 (h.2 a' rfl)
    exact ⟨h.1.trans this.1, this.2⟩

theorem read_ok (v : View) (st : St K) : ∃ a, (read v st).1 = .ok a := ⟨_, rfl⟩
theorem alloc_ok (s : List ℕ) (b : Buf K) (st : St K) : ∃ a, (alloc s b st).1 = .ok a := ⟨_, rfl⟩
theorem write_ok (v : View) (f : Buf K → Buf K) (st : St K) : ∃ a, (write v f st).1 = .ok a := ⟨_, rfl⟩

/-- one component of an array with knots -/
def vval (st : St K) (xk : List K) (v : View) (idx : List ℕ) : PwPoly K K :=
  ⟨xk, (st.heap v.ref).n, (List.range (st.heap v.ref).m).map fun i => (st.heap v.ref).get (v.comp idx) i⟩

/-- an object of the right class with the right component -/
structure Is (idx : List ℕ) (o : Obj K) (b : SplineOut K K) (st : St K) : Prop where
  good : Good st o
  den : st.den o idx = b

theorem Is.keep {idx : List ℕ} {o : Obj K} {b : SplineOut K K} {st st' : St K} (h : Is idx o b st) (hk : Keeps st.next st st') : Is idx o b st' := by
  refine ⟨h.good.keep hk, ?_⟩
  rw [← h.den]
  unfold St.den St.value
  rw [hk.heap _ h.good.ref]

theorem Is.base {idx : List ℕ} {o : Obj K} {b : SplineOut K K} {st : St K} (h : Is idx o b st) : b.base = st.value o idx := by
  rw [← h.den]
  unfold St.den
  split <;> rfl

theorem Is.isPer {idx : List ℕ} {o : Obj K} {b : SplineOut K K} {st : St K} (h : Is idx o b st) : b.isPer = o.per := by
  rw [← h.den]
  unfold St.den
  split
  · rename_i h; rw [h]; rfl
  · rename_i h; simp at h; rw [h]; rfl

/-- the value of an object made by `new` -/
theorem ref_new {N : ℕ} {st : St K} {per : Bool} {xk : List K} {c : View} {idx : List ℕ} (hidx : ValidIdx c.shape idx)
    (hr : c.ref < st.next) (hm : (st.heap c.ref).m = xk.length + 1)
    (h : per = true → 2 ≤ xk.length → N ≤ c.ref ∨ ∀ k, c.Sees k → Coherent (st.heap c.ref) (lastDx xk) k) :
    Ref N st (new per xk c) (SplineOut.new per (vval st xk c idx)) fun o b st' => o = ⟨per, xk, c⟩ ∧ Is idx o b st' := by
  have t := tri_new hr hm h
  cases per with
  | false => exact Ref.pure ⟨rfl, ⟨hr, hm, by simp⟩, rfl⟩
  | true =>
    by_cases hx : xk.length < 2
    · have e1 : new true xk c st = (.error .typeError, st) := by
        unfold new
        simp only [if_true, if_pos hx]
        rfl
      have e2 : SplineOut.new true (vval st xk c idx) = .error .typeError := by
        unfold SplineOut.new PerPwPoly.new vval
        simp [hx, Except.map]
      unfold Ref
      rw [e1, e2]
      exact ⟨Keeps.refl _ _, rfl⟩
    · set st' : St K := { st with heap := Function.update st.heap c.ref ((st.heap c.ref).perInit (lastDx xk) c.Sees) } with hst'
      have e1 : new true xk c st = (.ok ⟨true, xk, c⟩, st') := by
        unfold new
        simp only [if_true, if_neg hx]
        rw [run_bind]
        rfl
      have hv := heap_perInit_value (y := ⟨true, xk, c⟩) (st := st) (st' := st') (idx := idx) (k := 0) hm (Nat.le_of_not_lt hx) ⟨idx, hidx, rfl⟩
        ⟨idx, hidx, rfl⟩ (Function.update_self _ _ _)
      have hv : (PerPwPoly.new (vval st xk c idx)).map (·.base) = .ok (st'.value ⟨true, xk, c⟩ idx) := hv
      have e2 : SplineOut.new true (vval st xk c idx) = .ok (st'.den ⟨true, xk, c⟩ idx) := by
        unfold SplineOut.new St.den
        rw [if_pos rfl, if_pos rfl]
        have hper : ∀ P, PerPwPoly.new (vval st xk c idx) = .ok P → P.period = some (xk.getD (xk.length - 1) 0 - xk.getD 0 0) := by
          intro P hP
          unfold PerPwPoly.new at hP
          rw [if_neg (show ¬ (vval st xk c idx).xk.length < 2 from hx)] at hP
          cases hP
          rfl
        rcases hP : PerPwPoly.new (vval st xk c idx) with e | P
        · rw [hP] at hv; cases hv
        · rw [hP] at hv
          have h1 := hper P hP
          have h2 : P.base = st'.value ⟨true, xk, c⟩ idx := Except.ok.inj hv
          rw [← h2]
          show Except.ok (SplineOut.per P) = _
          congr 2
          cases P
          simp only at h1 ⊢
          rw [h1]
      unfold Tri at t
      unfold Ref
      rw [e1] at t
      rw [e1, e2]
      exact ⟨t.1, rfl, (t.2 _ rfl).2, rfl⟩

/-! ### derivative, integral, negative, copy, component -/

theorem derivLoop_val {N : ℕ} {xk : List K} (m : ℕ) : ∀ (st : St K) (c : View), N ≤ st.next →
    Tri N st (derivLoop m c) (fun c' st' => c'.shape = c.shape ∧ ∀ idx, vval st' xk c' idx = (vval st xk c idx).deriv m) ∧
      ∃ a, (derivLoop m c st).1 = .ok a := by
  induction m with
  | zero => intro st c _; exact ⟨Tri.pure ⟨rfl, fun _ => rfl⟩, _, rfl⟩
  | succ m ih =>
    intro st c hN
    have key : ∀ (b : Buf K), b = ⟨(st.heap c.ref).n, (st.heap c.ref).m, fun idx i => (st.heap c.ref).get (c.comp idx) i⟩ →
        Tri N st (if b.n < 2 then alloc c.shape ⟨b.n, b.m, fun idx i => (b.get idx i).map fun _ => 0⟩ else do
          let c ← alloc c.shape ⟨b.n - 1, b.m, fun idx i => PwPoly.derivPiece K (b.get idx i)⟩
          derivLoop m c) (fun c' st' => c'.shape = c.shape ∧ ∀ idx, vval st' xk c' idx = (vval st xk c idx).deriv (m + 1)) ∧
        ∃ a, ((if b.n < 2 then alloc c.shape ⟨b.n, b.m, fun idx i => (b.get idx i).map fun _ => 0⟩ else do
          let c ← alloc c.shape ⟨b.n - 1, b.m, fun idx i => PwPoly.derivPiece K (b.get idx i)⟩
          derivLoop m c : M K View) st).1 = .ok a := by
      intro b hb
      by_cases hn : b.n < 2
      · rw [if_pos hn]
        refine ⟨(tri_alloc hN _ _).mono fun v s _ hv => ⟨hv.1, fun idx => ?_⟩, _, rfl⟩
        unfold vval PwPoly.deriv PwPoly.derivLoop
        rw [hv.2.2.2.2, hv.2.1]
        subst hb
        simp only at hn
        simp [hn, Function.comp_def]
      · rw [if_neg hn]
        have hal := tri_alloc (N := N) (st := st) hN c.shape ⟨b.n - 1, b.m, fun idx i => PwPoly.derivPiece K (b.get idx i)⟩
        refine ⟨hal.bind fun v s hk hv => (ih s v (hN.trans hk.next)).1.mono fun v' s' _ h => ⟨h.1.trans hv.1, fun idx => ?_⟩, ?_⟩
        · rw [h.2 idx]
          unfold vval
          rw [hv.2.2.2.2, hv.2.1]
          subst hb
          simp only at hn
          unfold PwPoly.deriv
          rw [PwPoly.derivLoop, if_neg hn]
          simp [Function.comp_def]
        · rw [run_bind]
          exact (ih _ _ (hN.trans hal.1.next)).2
    have e : derivLoop (m + 1) c st = (if (st.heap c.ref).n < 2 then alloc c.shape ⟨(st.heap c.ref).n, (st.heap c.ref).m, fun idx i => ((st.heap c.ref).get (c.comp idx) i).map fun _ => 0⟩ else do
          let c ← alloc c.shape ⟨(st.heap c.ref).n - 1, (st.heap c.ref).m, fun idx i => PwPoly.derivPiece K ((st.heap c.ref).get (c.comp idx) i)⟩
          derivLoop m c : M K View) st := by
      rw [derivLoop, run_bind]; rfl
    have := key _ rfl
    unfold Tri at this ⊢
    rw [e]
    exact this

theorem Arr.refNew {N : ℕ} {st st' : St K} {o : Obj K} (ho : Good st o) (hk : Keeps N st st') (hN : N = st.next) {c : View} (h : Arr N st' o c)
    {idx : List ℕ} (hidx : ValidIdx c.shape idx) :
    Ref N st' (Heap.new o.per o.xk c) (SplineOut.new o.per (vval st' o.xk c idx)) fun o' b st'' => o' = ⟨o.per, o.xk, c⟩ ∧ Is idx o' b st'' := by
  refine ref_new hidx h.ref h.m fun hp _ => ?_
  rcases h.ok with h | rfl
  · exact .inl h
  · right
    have := (ho.keep (hN ▸ hk)).coh hp
    exact this.2

theorem Tri.and {α : Type} {N : ℕ} {st : St K} {x : M K α} {Q R : α → St K → Prop} (h : Tri N st x Q) (h' : Tri N st x R) :
    Tri N st x fun a s => Q a s ∧ R a s := ⟨h.1, fun a ha => ⟨h.2 a ha, h'.2 a ha⟩⟩

theorem ref_deriv {st : St K} {o : Obj K} (h : Good st o) (m : ℕ) {idx : List ℕ} (hidx : ValidIdx o.c.shape idx) :
    Ref st.next st (deriv o m) (SplineOut.new o.per ((st.value o idx).deriv m)) fun o' b st' => o'.c.shape = o.c.shape ∧ Is idx o' b st' := by
  have hd := derivLoop_val (N := st.next) (xk := o.xk) m st o.c le_rfl
  refine Ref.of_tri ((tri_derivLoop m st o.c le_rfl ⟨h.ref, h.m, .inr rfl⟩).and hd.1) hd.2 fun c st' hk hq => ?_
  obtain ⟨h1, h2, h3⟩ := hq
  have := h1.refNew h hk rfl (idx := idx) (by rw [h2]; exact hidx)
  rw [h3 idx] at this
  exact this.mono fun o' b s _ _ h => ⟨by rw [h.1]; exact h2, h.2⟩

theorem map_range_getD {α : Type} (l : List α) (d : α) {m : ℕ} (h : l.length = m) : (List.range m).map (fun i => l.getD i d) = l := by
  subst h
  refine List.ext_getElem (by simp) fun i h1 h2 => ?_
  simp [List.getElem?_eq_getElem h2]

theorem stepUp_length {xk : List K} {c : List (List K)} (h : c.length = xk.length + 1) (h1 : 1 < xk.length) : (PwPoly.stepUp xk c).length = c.length := by
  have hc : ∀ (l : List K) (s : K), (PwPoly.cumsumFrom s l).length = l.length := by
    intro l
    induction l with
    | nil => intro s; rfl
    | cons a l ih => intro s; simp [PwPoly.cumsumFrom, ih]
  unfold PwPoly.stepUp PwPoly.diffs
  simp only [List.length_append, List.length_take, List.length_zipWith, List.length_drop, hc, List.length_dropLast, List.length_tail]
  omega

theorem integLoop_val {N : ℕ} {xk : List K} {ibnd : ℕ} {lb : K} (hib : ibnd ≤ xk.length) (ks : List (List ℕ → K)) : ∀ (st : St K) (c : View), N ≤ st.next →
    (st.heap c.ref).m = xk.length + 1 →
    Tri N st (integLoop xk ibnd lb ks c) (fun c' st' => c'.shape = c.shape ∧ ∀ idx, vval st' xk c' idx =
      ⟨xk, (vval st xk c idx).n + ks.length, (ks.map fun k => k idx).foldl (PwPoly.integStep xk ibnd lb) (vval st xk c idx).c⟩) ∧
      ∃ a, (integLoop xk ibnd lb ks c st).1 = .ok a := by
  induction ks with
  | nil => intro st c _ _; exact ⟨Tri.pure ⟨rfl, fun _ => rfl⟩, _, rfl⟩
  | cons k ks ih =>
    intro st c hN hm
    -- the state before the next trip
    set b0 : Buf K := ⟨(st.heap c.ref).n + 1, (st.heap c.ref).m, fun idx i => PwPoly.integPiece K ((st.heap c.ref).get (c.comp idx) i)⟩ with hb0
    set b1 : Buf K := if 1 < xk.length then { b0 with get := fun idx i => (PwPoly.stepUp xk ((List.range b0.m).map (b0.get idx))).getD i [] } else b0 with hb1
    set b2 : Buf K := { b1 with get := fun idx i => PwPoly.addHead (k idx - polyfun (b1.get idx ibnd) lb) (b1.get idx i) } with hb2
    set st2 : St K := ⟨Function.update st.heap st.next b2, st.next + 1, st.objs⟩ with hst2
    set c2 : View := ⟨st.next, c.shape, id⟩ with hc2
    have e : integLoop xk ibnd lb (k :: ks) c st = integLoop xk ibnd lb ks c2 st2 := by
      rw [integLoop, run_bind]
      show ((alloc c.shape b0 >>= fun c => _) : M K View) st = _
      rw [run_bind]
      by_cases h1 : 1 < xk.length
      · simp only [if_pos h1, alloc, run_bind, write]
        congr 1
        rw [hst2]
        congr 1
        simp only [Function.update_self, Function.update_idem]
        rw [hb2, hb1, if_pos h1]
      · simp only [if_neg h1, alloc, run_bind, write]
        congr 1
        rw [hst2]
        congr 1
        simp only [Function.update_self, Function.update_idem]
        rw [hb2, hb1, if_neg h1]
    have hm2 : b1.m = xk.length + 1 := by rw [hb1]; split <;> exact hm
    have hn2 : b1.n = (st.heap c.ref).n + 1 := by rw [hb1]; split <;> rfl
    have hs2 : st2.heap c2.ref = b2 := Function.update_self _ _ _
    have hk2 : Keeps N st st2 := ⟨Nat.le_succ _, fun r hr => Function.update_of_ne (by omega) _ _, rfl⟩
    have := ih st2 c2 (hN.trans hk2.next) (by rw [hs2]; exact hm2)
    have hval : ∀ idx, vval st2 xk c2 idx = ⟨xk, (vval st xk c idx).n + 1, PwPoly.integStep xk ibnd lb (vval st xk c idx).c (k idx)⟩ := by
      intro idx
      have l0 : ((List.range b0.m).map (b0.get idx)) = (vval st xk c idx).c.map (PwPoly.integPiece K) := by
        simp [hb0, vval, Function.comp_def]
      have l1 : ((List.range b1.m).map (b1.get idx)) = if 1 < xk.length then PwPoly.stepUp xk ((vval st xk c idx).c.map (PwPoly.integPiece K))
          else (vval st xk c idx).c.map (PwPoly.integPiece K) := by
        by_cases h1 : 1 < xk.length
        · simp only [hb1, if_pos h1]
          rw [l0]
          refine map_range_getD _ _ ?_
          rw [stepUp_length _ h1]
          · simp [vval, hb0]
          · simp [vval, hm]
        · simp only [hb1, if_neg h1]
          exact l0
      have gi : b1.get idx ibnd = (((List.range b1.m).map (b1.get idx))).getD ibnd [] := by
        rw [List.getD_eq_getElem _ _ (by simp; omega)]
        simp
      unfold PwPoly.integStep
      simp only
      rw [← l1, ← gi]
      show (⟨xk, (st2.heap c2.ref).n, _⟩ : PwPoly K K) = _
      simp only [hs2, hb2, hn2, List.map_map, Function.comp_def]
      rfl
    unfold Tri at this ⊢
    rw [e]
    refine ⟨⟨hk2.trans this.1.1, fun a ha => ⟨(this.1.2 a ha).1, fun idx => ?_⟩⟩, this.2⟩
    rw [(this.1.2 a ha).2 idx, hval idx]
    simp only [List.map_cons, List.foldl_cons, List.length_cons]
    congr 1
    omega

theorem ss_le (xk : List K) (x : K) : searchsorted xk x ≤ xk.length := by
  unfold searchsorted
  exact List.countP_le_length

theorem ref_integ {st : St K} {o : Obj K} (h : Good st o) (ks : List (List ℕ → K)) (lbnd : K) {idx : List ℕ} (hidx : ValidIdx o.c.shape idx) :
    Ref st.next st (integ o ks lbnd) ((st.value o idx).integ ks.length (ks.map fun k => k idx) lbnd >>= SplineOut.new o.per)
      fun o' b st' => o'.c.shape = o.c.shape ∧ Is idx o' b st' := by
  have hd := integLoop_val (N := st.next) (xk := o.xk) (ibnd := searchsorted o.xk lbnd) (lb := lbnd - (PwPoly.mkXk0 o.xk).getD (searchsorted o.xk lbnd) 0)
    (ss_le _ _) ks st o.c le_rfl h.m
  have e : (st.value o idx).integ ks.length (ks.map fun k => k idx) lbnd = .ok ⟨o.xk, (vval st o.xk o.c idx).n + ks.length,
      (ks.map fun k => k idx).foldl (PwPoly.integStep o.xk (searchsorted o.xk lbnd) (lbnd - (PwPoly.mkXk0 o.xk).getD (searchsorted o.xk lbnd) 0))
        (vval st o.xk o.c idx).c⟩ := by
    have hc : PwPoly.integConsts ks.length (ks.map fun k => k idx) = .ok (ks.map fun k => k idx) := by
      unfold PwPoly.integConsts
      simp
    unfold PwPoly.integ
    rw [hc]
    simp only [bind, Except.bind, List.length_map]
    rfl
  refine Ref.of_tri ((tri_integLoop ks st o.c le_rfl ⟨h.ref, h.m, .inr rfl⟩).and hd.1) hd.2 fun c st' hk hq => ?_
  obtain ⟨h1, h2, h3⟩ := hq
  have := h1.refNew h hk rfl (idx := idx) (by rw [h2]; exact hidx)
  rw [h3 idx] at this
  rw [e]
  exact this.mono fun o' b s _ _ h => ⟨by rw [h.1]; exact h2, h.2⟩

theorem ref_neg {st : St K} {o : Obj K} (h : Good st o) {idx : List ℕ} (hidx : ValidIdx o.c.shape idx) :
    Ref st.next st (neg o) (SplineOut.new o.per (st.value o idx).neg) fun o' b st' => o'.c.shape = o.c.shape ∧ Is idx o' b st' := by
  refine Ref.of_tri (tri_read o.c) (read_ok _ _) fun b st' _ hb => ?_
  obtain ⟨rfl, hb⟩ := hb
  refine Ref.of_tri (tri_alloc le_rfl _ _) (alloc_ok _ _ _) fun v s hk hv => ?_
  have := Arr.refNew h hk rfl (c := v) ⟨hv.2.2.2.1, by rw [hv.2.2.2.2, hb]; exact h.m, .inl hv.2.2.1⟩ (idx := idx) (by rw [hv.1]; exact hidx)
  have e : vval s o.xk v idx = (st'.value o idx).neg := by
    unfold vval St.value PwPoly.neg
    rw [hv.2.2.2.2, hv.2.1, hb]
    simp [Function.comp_def]
  rw [e] at this
  exact this.mono fun o' b s _ _ h => ⟨by rw [h.1]; exact hv.1, h.2⟩

theorem ref_copy {st : St K} {o : Obj K} (h : Good st o) {idx : List ℕ} (hidx : ValidIdx o.c.shape idx) :
    Ref st.next st (copy o) (.ok (st.den o idx)) fun o' b st' => o'.c.shape = o.c.shape ∧ Is idx o' b st' := by
  have t := tri_copy h
  have e : ∃ o', (copy o st).1 = .ok o' ∧ o'.c.shape = o.c.shape ∧ (copy o st).2.den o' idx = st.den o idx := by
    refine ⟨_, rfl, rfl, ?_⟩
    show St.den ⟨Function.update st.heap st.next _, _, _⟩ ⟨o.per, o.xk, ⟨st.next, _, id⟩⟩ idx = _
    unfold St.den St.value
    simp only [Function.update_self]
    rfl
  obtain ⟨o', h1, h2, h3⟩ := e
  unfold Tri at t
  unfold Ref
  rw [h1]
  exact ⟨t.1, h2, t.2 o' h1, h3⟩

theorem ref_item {st : St K} {o : Obj K} (h : Good st o) (shape : List ℕ) (f : List ℕ → List ℕ) (hf : ∀ idx, ValidIdx shape idx → ValidIdx o.c.shape (f idx))
    {idx : List ℕ} :
    Ref st.next st (item o shape f) (.ok (st.den o (f idx))) fun o' b st' => o'.c.shape = shape ∧ Is idx o' b st' := by
  have t := tri_item h shape f
  have hm : (st.heap o.c.ref).m = o.xk.length + 1 := h.m
  set c' : View := ⟨o.c.ref, shape, fun idx => o.c.comp (f idx)⟩ with hc'
  have hn : item o shape f st = new o.per o.xk c' st := by
    unfold item
    rw [if_neg (by rintro ⟨i, h1, h2⟩; exact h2 (hf i h1))]
  have hnew : new o.per o.xk c' st = (.ok ⟨o.per, o.xk, c'⟩, st) := by
    unfold new
    cases hp : o.per with
    | false => rfl
    | true =>
      simp only [if_true]
      have := h.coh hp
      rw [if_neg (by omega), run_bind]
      have e : write c' (Buf.perInit (lastDx o.xk) c'.Sees) st = (.ok (), st) := by
        unfold write
        rw [perInit_eq, Function.update_eq_self]
        rintro k ⟨i, h1, rfl⟩
        exact this.2 _ ⟨f i, hf i h1, rfl⟩
      simp only [e]
      rfl
  unfold Tri at t
  unfold Ref
  rw [hn, hnew] at t ⊢
  exact ⟨t.1, rfl, t.2 _ rfl, rfl⟩

theorem ref_fresh {st : St K} (per : Bool) (xk : List K) (shape : List ℕ) (n : ℕ) (get : List ℕ → ℕ → List K) {idx : List ℕ} (hidx : ValidIdx shape idx) :
    Ref st.next st (fresh per xk shape n get) (SplineOut.new per ⟨xk, n, (List.range (xk.length + 1)).map (get idx)⟩)
      fun o' b st' => o'.c.shape = shape ∧ Is idx o' b st' := by
  refine Ref.of_tri (tri_alloc le_rfl _ _) (alloc_ok _ _ _) fun v s hk hv => ?_
  have := ref_new (N := st.next) (per := per) (xk := xk) (c := v) (idx := idx) (by rw [hv.1]; exact hidx) hv.2.2.2.1 (by rw [hv.2.2.2.2]) fun _ _ => .inl hv.2.2.1
  have e : vval s xk v idx = ⟨xk, n, (List.range (xk.length + 1)).map (get idx)⟩ := by
    unfold vval
    rw [hv.2.2.2.2, hv.2.1]
    rfl
  rw [e] at this
  exact this.mono fun o' b s _ _ h => ⟨by rw [h.1]; exact hv.1, h.2⟩

/-! ### binary operations -/

/-- an operand of the operation: the component used for the component `idx` of the result -/
structure Arg1 (idx : List ℕ) (o : Obj K) (b : SplineOut K K) (st : St K) : Prop where
  is : Is (bcIdx o.c.shape idx) o b st
  valid : ValidIdx o.c.shape (bcIdx o.c.shape idx)

theorem Arg1.keep {idx : List ℕ} {o : Obj K} {b : SplineOut K K} {st st' : St K} (h : Arg1 idx o b st) (hk : Keeps st.next st st') : Arg1 idx o b st' :=
  ⟨h.is.keep hk, h.valid⟩

theorem ref_pad {st : St K} {o : Obj K} {X : SplineOut K K} {idx : List ℕ} (h : Arg1 idx o X st) (skip per : Bool) {nd : ℕ}
    (h1 : 1 ≤ (st.heap o.c.ref).n) (hnd : (st.heap o.c.ref).n ≤ nd) :
    Ref st.next st (operand skip per o nd) (if skip then .ok X else SplineOut.pad per X (nd - 1)) fun o' b st' =>
      o'.c.shape = o.c.shape ∧ (o'.per = per ∨ o'.per = o.per) ∧ Arg1 idx o' b st' := by
  unfold operand
  cases skip with
  | true => exact Ref.pure ⟨rfl, .inr rfl, h⟩
  | false =>
    simp only [Bool.false_eq_true, if_false]
    unfold pad
    refine Ref.of_tri (tri_read o.c) (read_ok _ _) fun b s _ hb => ?_
    obtain ⟨rfl, hb⟩ := hb
    have hbn : b.n = (s.heap o.c.ref).n := by rw [hb]
    have hdeg : X.base.deg = (s.heap o.c.ref).n - 1 := by rw [h.is.base]; rfl
    unfold SplineOut.pad
    by_cases hn : b.n = nd
    · rw [if_neg (by simpa using hn), if_neg (by rw [hdeg]; omega)]
      exact Ref.pure ⟨rfl, .inr rfl, h⟩
    · rw [if_pos hn, if_pos (by rw [hdeg]; omega)]
      refine Ref.of_tri (tri_alloc le_rfl _ _) (alloc_ok _ _ _) fun v s1 hk hv => ?_
      have := ref_new (N := s.next) (per := per) (xk := o.xk) (c := v) (idx := bcIdx o.c.shape idx) (by rw [hv.1]; exact h.valid) hv.2.2.2.1
        (by rw [hv.2.2.2.2, hb]; exact h.is.good.m) fun _ _ => .inl hv.2.2.1
      have e : vval s1 o.xk v (bcIdx o.c.shape idx) = X.base.padTo (nd - 1) := by
        rw [h.is.base]
        unfold PwPoly.padTo
        rw [if_pos (by rw [← h.is.base, hdeg]; omega)]
        unfold vval St.value
        rw [hv.2.2.2.2, hv.2.1, hb]
        simp only [PwPoly.deg, List.map_map, Function.comp_def, id]
        congr 1
        · omega
        · rw [show nd - 1 - ((s.heap o.c.ref).n - 1) = nd - (s.heap o.c.ref).n by omega]
      rw [e] at this
      refine this.mono fun o' b s _ _ h' => ?_
      obtain ⟨rfl, h'⟩ := h'
      exact ⟨hv.1, .inl rfl, by simp only [hv.1]; exact h', by simp only [hv.1]; exact h.valid⟩

theorem bcIdx_lift {s idx : List ℕ} {k : ℕ} (h : k + s.length = idx.length) : (bcIdx (List.replicate k 1 ++ s) idx).drop k = bcIdx s idx := by
  unfold bcIdx
  simp only [List.length_append, List.length_replicate]
  rw [show idx.length - (k + s.length) = 0 by omega, show idx.length - s.length = k by omega, List.drop_zero, List.drop_zipWith]
  simp

theorem valid_lift {s idx : List ℕ} {k : ℕ} (h : k + s.length = idx.length) (hv : ValidIdx s (bcIdx s idx)) :
    ValidIdx (List.replicate k 1 ++ s) (bcIdx (List.replicate k 1 ++ s) idx) := by
  refine ⟨bcIdx_length (by simp; omega), fun j hj => ?_⟩
  rw [bcIdx_getD (by simp; omega) hj]
  split
  · omega
  next hne =>
  simp only [List.length_append, List.length_replicate] at hj ⊢
  rcases Nat.lt_or_ge j k with hjk | hjk
  · exact absurd (by simp [List.getD_eq_getElem?_getD, List.getElem?_append, hjk]) hne
  · have := hv.2 (j - k) (by omega)
    rw [bcIdx_getD (by omega) (by omega)] at this
    have e : (List.replicate k 1 ++ s).getD j 0 = s.getD (j - k) 0 := by
      simp [List.getD_eq_getElem?_getD, List.getElem?_append, Nat.not_lt.2 hjk]
    rw [e] at hne ⊢
    rw [if_neg hne] at this
    rwa [show idx.length - (k + s.length) + j = idx.length - s.length + (j - k) by omega]

/-- a temporary object of other dimensions, of the same class -/
theorem ref_lift {st : St K} {o : Obj K} {X : SplineOut K K} {idx : List ℕ} (h : Arg1 idx o X st) {k : ℕ} (hk : k + o.c.shape.length = idx.length) :
    ∃ o', new o.per o.xk (o.c.lift k) st = (.ok o', st) ∧ o'.c.shape = List.replicate k 1 ++ o.c.shape ∧ Arg1 idx o' X st := by
  have hcoh : o.per = true → 2 ≤ o.xk.length ∧ ∀ t, (o.c.lift k).Sees t → Coherent (st.heap o.c.ref) (lastDx o.xk) t := fun hp =>
    ⟨(h.is.good.coh hp).1, fun t ht => (h.is.good.coh hp).2 t (sees_lift ht)⟩
  refine ⟨⟨o.per, o.xk, o.c.lift k⟩, ?_, rfl, ⟨⟨h.is.good.ref, h.is.good.m, hcoh⟩, ?_⟩, valid_lift hk h.valid⟩
  · unfold new
    cases hp : o.per with
    | false => rfl
    | true =>
      have := hcoh hp
      simp only [if_true]
      rw [if_neg (by omega), run_bind]
      have e : write (o.c.lift k) (Buf.perInit (lastDx o.xk) (o.c.lift k).Sees) st = (.ok (), st) := by
        unfold write
        have e : (o.c.lift k).ref = o.c.ref := rfl
        rw [e, perInit_eq this.2, Function.update_eq_self]
      simp only [e]
      rfl
  · rw [← h.is.den]
    show (if o.per then _ else _) = _
    unfold St.den St.value
    show (if o.per = true then SplineOut.per ⟨⟨o.xk, (st.heap o.c.ref).n, (List.range (st.heap o.c.ref).m).map fun i =>
        (st.heap o.c.ref).get (o.c.comp ((bcIdx (List.replicate k 1 ++ o.c.shape) idx).drop k)) i⟩, _⟩
      else SplineOut.pw ⟨o.xk, (st.heap o.c.ref).n, (List.range (st.heap o.c.ref).m).map fun i =>
        (st.heap o.c.ref).get (o.c.comp ((bcIdx (List.replicate k 1 ++ o.c.shape) idx).drop k)) i⟩) = _
    rw [bcIdx_lift hk]

theorem bcastRev_lift : ∀ {s t : List ℕ} {k : ℕ}, s.length + k = t.length → bcastRev (s ++ List.replicate k 1) t = bcastRev s t ∧
    bcastRev t (s ++ List.replicate k 1) = bcastRev t s
  | [], t, k, h => by
    have e : ∀ (t : List ℕ), bcastRev (List.replicate t.length 1) t = some t ∧ bcastRev t (List.replicate t.length 1) = some t := by
      intro t
      induction t with
      | nil => exact ⟨rfl, rfl⟩
      | cons a t ih =>
        constructor
        · simp only [List.length_cons, List.replicate_succ, bcastRev, ih.1]
          split_ifs with h <;> first | rfl | rw [h]
        · simp only [List.length_cons, List.replicate_succ, bcastRev, ih.2]
          split_ifs with h <;> first | rfl | rw [h]
    have hk : k = t.length := by simpa using h
    subst hk
    obtain ⟨e1, e2⟩ := e t
    refine ⟨?_, ?_⟩
    · rw [List.nil_append, e1]; simp [bcastRev]
    · rw [List.nil_append, e2]; cases t <;> simp [bcastRev]
  | a :: s, [], k, h => by simp at h
  | a :: s, b :: t, k, h => by
    obtain ⟨e1, e2⟩ := bcastRev_lift (s := s) (t := t) (k := k) (by simp at h; omega)
    exact ⟨by rw [List.cons_append, bcastRev, bcastRev, e1], by rw [List.cons_append, bcastRev, bcastRev, e2]⟩

theorem bcastShape_lift {s t : List ℕ} {k : ℕ} (h : k + s.length = t.length) :
    bcastShape (List.replicate k 1 ++ s) t = bcastShape s t ∧ bcastShape t (List.replicate k 1 ++ s) = bcastShape t s := by
  unfold bcastShape
  rw [List.reverse_append, List.reverse_replicate]
  obtain ⟨e1, e2⟩ := bcastRev_lift (s := s.reverse) (t := t.reverse) (k := k) (by simp; omega)
  rw [e1, e2]
  exact ⟨rfl, rfl⟩

theorem ref_align {st : St K} {per : Bool} {this other : Obj K} {A B : SplineOut K K} {idx : List ℕ} (h1 : Arg1 idx this A st) (h2 : Arg1 idx other B st)
    (hl : idx.length = max this.c.shape.length other.c.shape.length)
    (hc : this.c.shape.length = other.c.shape.length ∨ this.per = per ∧ other.per = per) :
    Ref st.next st (align per this other) (.ok (A, B)) fun o b st' => Arg1 idx o.1 b.1 st' ∧ Arg1 idx o.2 b.2 st' ∧
      bcastShape o.1.c.shape o.2.c.shape = bcastShape this.c.shape other.c.shape := by
  unfold align
  simp only
  by_cases hlt : this.c.shape.length < other.c.shape.length
  · rw [if_pos hlt]
    obtain ⟨o', e, hs, ha⟩ := ref_lift h1 (k := other.c.shape.length - this.c.shape.length) (by omega)
    have hp : this.per = per := by rcases hc with h | h; omega; exact h.1
    rw [hp] at e
    unfold Ref
    rw [run_bind, e]
    refine ⟨Keeps.refl _ _, ha, h2, ?_⟩
    show bcastShape o'.c.shape other.c.shape = _
    rw [hs]
    exact (bcastShape_lift (by omega)).1
  · rw [if_neg hlt]
    by_cases hgt : other.c.shape.length < this.c.shape.length
    · rw [if_pos hgt]
      obtain ⟨o', e, hs, ha⟩ := ref_lift h2 (k := this.c.shape.length - other.c.shape.length) (by omega)
      have hp : other.per = per := by rcases hc with h | h; omega; exact h.2
      rw [hp] at e
      unfold Ref
      rw [run_bind, e]
      refine ⟨Keeps.refl _ _, h1, ha, ?_⟩
      show bcastShape this.c.shape o'.c.shape = _
      rw [hs]
      exact (bcastShape_lift (by omega)).2
    · rw [if_neg hgt]
      exact Ref.pure ⟨h1, h2, rfl⟩

theorem addknotsRaw_length (p : PwPoly K K) {u : List K} (hu : u ≠ []) : (p.addknotsRaw u).c.length = u.length + 1 := by
  cases u with
  | nil => exact absurd rfl hu
  | cons a u => simp [PwPoly.addknotsRaw, PwPoly.mkXk0]

theorem ref_addknots {st : St K} {o : Obj K} {X : SplineOut K K} {idx : List ℕ} (h : Arg1 idx o X st) {u : List K} (hu : u ≠ []) :
    Ref st.next st (addknots o u) (X.addknotsRaw u) fun o' b st' => Arg1 idx o' b st' ∧ o'.c.shape = o.c.shape ∧ o'.xk = u := by
  unfold addknots
  refine Ref.of_tri (tri_read o.c) (read_ok _ _) fun b s _ hb => ?_
  obtain ⟨rfl, hb⟩ := hb
  refine Ref.of_tri (tri_alloc le_rfl _ _) (alloc_ok _ _ _) fun v s1 hk hv => ?_
  have := ref_new (N := s.next) (per := o.per) (xk := u) (c := v) (idx := bcIdx o.c.shape idx) (by rw [hv.1]; exact h.valid) hv.2.2.2.1
    (by rw [hv.2.2.2.2]) fun _ _ => .inl hv.2.2.1
  have e : vval s1 u v (bcIdx o.c.shape idx) = X.base.addknotsRaw u := by
    rw [h.is.base]
    unfold vval
    rw [hv.2.2.2.2, hv.2.1]
    simp only [id]
    rw [map_range_getD _ _ (addknotsRaw_length _ hu), hb]
    rfl
  rw [e, ← h.is.isPer] at this
  unfold SplineOut.addknotsRaw
  rw [← h.is.isPer]
  refine this.mono fun o' b s _ _ h' => ?_
  obtain ⟨rfl, h'⟩ := h'
  exact ⟨⟨by simp only [hv.1]; exact h', by simp only [hv.1]; exact h.valid⟩, hv.1, rfl⟩

theorem allknots_ne {tol : K} {xk yk u : List K} {b : Bool} (h : PwPoly.allknotsGo tol (xk, false) [yk] = .ok (u, b)) :
    (b = true → u ≠ []) ∧ (b = false → yk.length = xk.length) := by
  unfold PwPoly.allknotsGo at h
  rcases hs : PwPoly.allknotsStep tol xk yk with e | _ | r
  · rw [hs] at h; cases h
  · rw [hs] at h
    simp only [PwPoly.allknotsGo, Except.ok.injEq, Prod.mk.injEq] at h
    obtain ⟨rfl, rfl⟩ := h
    refine ⟨by simp, fun _ => ?_⟩
    unfold PwPoly.allknotsStep at hs
    split at hs
    · rename_i e; rw [e]
    · split at hs
      rename_i a c hac
      split at hs
      · cases hs
      · rename_i h1
        split at hs
        · rename_i x l y m
          split at hs
          · split at hac <;> rename_i hle <;> cases hac <;> simp only [List.length_cons] at h1 hle ⊢ <;> omega
          · cases hs
        · cases hs
  · rw [hs] at h
    simp only [PwPoly.allknotsGo, Except.ok.injEq, Prod.mk.injEq] at h
    obtain ⟨rfl, rfl⟩ := h
    refine ⟨fun _ hr => ?_, by simp⟩
    subst hr
    unfold PwPoly.allknotsStep at hs
    split at hs
    · cases hs
    · split at hs
      rename_i a c hac
      split at hs
      · rename_i h1
        have := congrArg List.length (Option.some.inj (Except.ok.inj hs))
        simp at this
        rw [this.1] at h1
        simp at h1
      · split at hs
        · split at hs
          · cases hs
          · have := congrArg List.length (Option.some.inj (Except.ok.inj hs))
            rw [List.length_insertionSort] at this
            simp at this
        · cases hs

theorem ref_common {st : St K} {this other : Obj K} {A B : SplineOut K K} {idx : List ℕ} (h1 : Arg1 idx this A st) (h2 : Arg1 idx other B st) :
    Ref st.next st (common this other) (SplineOut.common A B) fun o b st' => Arg1 idx o.1 b.1 st' ∧ Arg1 idx o.2 b.2 st' ∧
      o.1.c.shape = this.c.shape ∧ o.2.c.shape = other.c.shape ∧ o.2.xk.length = o.1.xk.length := by
  have e1 : A.base.xk = this.xk := by rw [h1.is.base]; rfl
  have e2 : B.base.xk = other.xk := by rw [h2.is.base]; rfl
  unfold common SplineOut.common
  rw [e1, e2]
  rcases hk : PwPoly.allknotsGo (PwPoly.defaultTol K) (this.xk, false) [other.xk] with e | ⟨u, _ | _⟩
  · exact Ref.throw
  · exact Ref.pure ⟨h1, h2, rfl, rfl, (allknots_ne hk).2 rfl⟩
  · have hu := (allknots_ne hk).1 rfl
    refine (ref_addknots h1 hu).bind fun a A' s hk1 _ ha => ?_
    refine ((ref_addknots (h2.keep hk1) hu).weaken hk1.next).bind fun b B' s' hk2 _ hb => ?_
    exact Ref.pure ⟨ha.1.keep hb.2, hb.1.1, ha.2.1, hb.1.2.1, by rw [ha.2.2, hb.1.2.2]⟩

theorem ref_finish {st : St K} {this other : Obj K} {A B : SplineOut K K} {idx shape : List ℕ} (h1 : Arg1 idx this A st) (h2 : Arg1 idx other B st)
    (hs : bcastShape this.c.shape other.c.shape = .ok shape) (hv : ValidIdx shape idx) (hx : other.xk.length = this.xk.length) (per : Bool) (op : Bin)
    (hop : op ≠ .div) :
    Ref st.next st (finish per op this other)
      (SplineOut.new per ⟨A.base.xk, op.rows A.base.n B.base.n, op.pieces A.base.n B.base.n A.base.c B.base.c⟩) fun o' b st' =>
      o'.c.shape = shape ∧ Is idx o' b st' := by
  have hfin : finish per op this other = (do
      let a ← read this.c
      let b ← read other.c
      match bcastShape this.c.shape other.c.shape with
      | .error e => throw e
      | .ok shape => do
        let c ← alloc shape ⟨op.rows a.n b.n, this.xk.length + 1, fun _ _ => List.replicate (op.rows a.n b.n) 0⟩
        write c fun buf => { buf with get := fun idx i => (op.pieces a.n b.n ((List.range a.m).map fun i => a.get (bcIdx this.c.shape idx) i)
          ((List.range b.m).map fun i => b.get (bcIdx other.c.shape idx) i)).getD i [] }
        new per this.xk c) := by
    unfold finish
    cases op with
    | div => exact absurd rfl hop
    | add => rfl
    | sub => rfl
    | mul => rfl
  rw [hfin]
  refine Ref.of_tri (tri_read this.c) (read_ok _ _) fun a s _ ha => ?_
  obtain ⟨rfl, ha⟩ := ha
  refine Ref.of_tri (tri_read other.c) (read_ok _ _) fun b s _ hb => ?_
  obtain ⟨rfl, hb⟩ := hb
  rw [hs]
  simp only
  refine Ref.of_tri (tri_alloc le_rfl _ _) (alloc_ok _ _ _) fun v s1 hk1 hv1 => ?_
  refine Ref.of_tri (tri_write hv1.2.2.1 _) (write_ok _ _ _) fun _ s2 hk2 hq => ?_
  have hnw := ref_new (N := s.next) (per := per) (xk := this.xk) (c := v) (idx := idx) (st := s2) (by rw [hv1.1]; exact hv) (by rw [hq.2]; exact hv1.2.2.2.1)
    (by rw [hq.1, hv1.2.2.2.2]) fun _ _ => .inl hv1.2.2.1
  have eA := h1.is.base
  have eB := h2.is.base
  have e : vval s2 this.xk v idx = ⟨A.base.xk, op.rows A.base.n B.base.n, op.pieces A.base.n B.base.n A.base.c B.base.c⟩ := by
    unfold vval
    rw [hq.1, hv1.2.2.2.2, hv1.2.1, eA, eB, ha, hb]
    simp only [id, St.value]
    congr 1
    refine map_range_getD _ _ ?_
    have m1 := h1.is.good.m
    have m2 := h2.is.good.m
    unfold Bin.pieces
    cases op with
    | div => exact absurd rfl hop
    | add => simp [m1, m2, hx]
    | sub => simp [m1, m2, hx]
    | mul =>
      simp only
      split_ifs <;> simp [m1, m2, hx]
  rw [e] at hnw
  refine hnw.mono fun o' b s _ _ h' => ?_
  obtain ⟨rfl, h'⟩ := h'
  exact ⟨hv1.1, h'⟩

/-- the operators on values -/
def Bin.pure (op : Bin) (X Y : SplineOut K K) : Except PyErr (SplineOut K K) :=
  match op with
  | .add => X.add Y
  | .sub => X.sub Y
  | .mul => X.mul Y
  | .div => X.binary Y >>= fun _ => .error .typeError

theorem ref_args {st : St K} {x y : Obj K} {X Y : SplineOut K K} {idx : List ℕ} (hX : Arg1 idx x X st) (hY : Arg1 idx y Y st)
    (hx1 : 1 ≤ (st.heap x.c.ref).n) (hy1 : 1 ≤ (st.heap y.c.ref).n) (hl : idx.length = max x.c.shape.length y.c.shape.length)
    (hc : x.c.shape.length = y.c.shape.length ∨ x.per = y.per) (skip : Bool) :
    Ref st.next st (binaryArgs x y skip >>= fun ab => common ab.1 ab.2) (if skip then SplineOut.common X Y else SplineOut.binary X Y) fun o b st' =>
      Arg1 idx o.1 b.1 st' ∧ Arg1 idx o.2 b.2 st' ∧ bcastShape o.1.c.shape o.2.c.shape = bcastShape x.c.shape y.c.shape ∧
        o.2.xk.length = o.1.xk.length := by
  have dX : X.base.deg = (st.heap x.c.ref).n - 1 := by rw [hX.is.base]; rfl
  have dY : Y.base.deg = (st.heap y.c.ref).n - 1 := by rw [hY.is.base]; rfl
  set nd := max (st.heap x.c.ref).n (st.heap y.c.ref).n with hnd
  have hspec : (if skip then SplineOut.common X Y else SplineOut.binary X Y) =
      ((if skip then .ok X else SplineOut.pad x.per X (nd - 1)) >>= fun a =>
        (if skip then .ok Y else SplineOut.pad x.per Y (nd - 1)) >>= fun b => (.ok (a, b) : Except PyErr _) >>= fun ab => SplineOut.common ab.1 ab.2) := by
    cases skip with
    | true => rfl
    | false =>
      have e : max X.base.deg Y.base.deg = nd - 1 := by rw [dX, dY]; omega
      simp only [Bool.false_eq_true, if_false]
      unfold SplineOut.binary
      rw [e, hX.is.isPer]
      rfl
  have hprog : (binaryArgs x y skip >>= fun ab => common ab.1 ab.2 : M K _) st = ((operand skip x.per x nd >>= fun a =>
      operand skip x.per y nd >>= fun b => align x.per a b >>= fun ab => common ab.1 ab.2) : M K _) st := by
    unfold binaryArgs
    rw [bind_assoc, run_bind]
    show (read y.c >>= _ >>= _ : M K _) st = _
    rw [bind_assoc, run_bind]
    show ((operand skip x.per x nd >>= fun this => operand skip x.per y nd >>= fun other => align x.per this other) >>= fun ab => common ab.1 ab.2 : M K _) st = _
    simp only [bind_assoc]
  rw [hspec]
  refine Ref.congr hprog ?_
  refine (ref_pad hX skip x.per hx1 (le_max_left _ _)).bind fun a A s hk1 _ ha => ?_
  have hY' := hY.keep hk1
  have ny : (s.heap y.c.ref).n = (st.heap y.c.ref).n := by rw [hk1.heap _ hY.is.good.ref]
  refine ((ref_pad hY' skip x.per (by rw [ny]; exact hy1) (by rw [ny]; exact le_max_right _ _)).weaken hk1.next).bind fun b B s' hk2 _ hb => ?_
  obtain ⟨⟨b1, b2, b3⟩, hk2'⟩ := hb
  obtain ⟨a1, a2, a3⟩ := ha
  have a3 := a3.keep hk2'
  have hl' : idx.length = max a.c.shape.length b.c.shape.length := by rw [a1, b1]; exact hl
  have hc' : a.c.shape.length = b.c.shape.length ∨ a.per = x.per ∧ b.per = x.per := by
    rw [a1, b1]
    rcases hc with h | h
    · exact .inl h
    · refine .inr ⟨?_, ?_⟩
      · rcases a2 with h | h <;> exact h
      · rcases b2 with h' | h'
        · exact h'
        · rw [h', h]
  refine ((ref_align a3 b3 hl' hc').weaken (hk1.next.trans hk2.next)).bind fun ab AB s3 hk3 hAB h3 => ?_
  obtain ⟨⟨c1, c2, c3⟩, hk3'⟩ := h3
  refine ((ref_common c1 c2).weaken (hk1.next.trans (hk2.next.trans hk3.next))).mono fun o p s4 hk4 _ h4 => ?_
  obtain ⟨⟨d1, d2, d3, d4, d5⟩, hk4'⟩ := h4
  exact ⟨d1, d2, by rw [d3, d4, c3, a1, b1], d5⟩

theorem ref_binary {st : St K} {x y : Obj K} (gx : Good st x) (gy : Good st y) (hx1 : 1 ≤ (st.heap x.c.ref).n) (hy1 : 1 ≤ (st.heap y.c.ref).n)
    (hc : x.c.shape.length = y.c.shape.length ∨ x.per = y.per) {shape idx : List ℕ} (hs : bcastShape x.c.shape y.c.shape = .ok shape)
    (hv : ValidIdx shape idx) (op : Bin) :
    Ref st.next st (binary x y op) (op.pure (st.den x (bcIdx x.c.shape idx)) (st.den y (bcIdx y.c.shape idx))) fun o' b st' =>
      o'.c.shape = shape ∧ Is idx o' b st' := by
  have hcm := bcastShape_ok hs
  have vx := common_valid hcm (s := x.c.shape) (by simp) hv
  have vy := common_valid hcm (s := y.c.shape) (by simp) hv
  have hl : idx.length = max x.c.shape.length y.c.shape.length := by
    rw [hv.1]
    have l1 := hcm.len x.c.shape (by simp)
    have l2 := hcm.len y.c.shape (by simp)
    obtain ⟨t, ht, e⟩ := hcm.maxlen
    simp only [List.mem_cons, List.not_mem_nil, or_false] at ht
    rcases ht with rfl | rfl <;> omega
  set X := st.den x (bcIdx x.c.shape idx) with hXd
  set Y := st.den y (bcIdx y.c.shape idx) with hYd
  have hX : Arg1 idx x X st := ⟨⟨gx, rfl⟩, vx⟩
  have hY : Arg1 idx y Y st := ⟨⟨gy, rfl⟩, vy⟩
  have ha := ref_args hX hY hx1 hy1 hl hc op.skip
  have hprog : binary x y op = (binaryArgs x y op.skip >>= fun ab => common ab.1 ab.2) >>= fun ab => finish x.per op ab.1 ab.2 := by
    unfold binary
    rw [bind_assoc]
  rw [hprog]
  have hXp := hX.is.isPer
  by_cases hop : op = .div
  · subst hop
    refine ha.bind (g := fun _ => .error .typeError) fun ab AB s hk _ h => ?_
    exact ⟨Keeps.refl _ _, rfl⟩
  · have hspec : op.pure X Y = (if op.skip then SplineOut.common X Y else SplineOut.binary X Y) >>= fun AB =>
        SplineOut.new x.per ⟨AB.1.base.xk, op.rows AB.1.base.n AB.2.base.n, op.pieces AB.1.base.n AB.2.base.n AB.1.base.c AB.2.base.c⟩ := by
      rw [← hXp]
      cases op with
      | div => exact absurd rfl hop
      | add => rfl
      | sub => rfl
      | mul =>
        show X.mul Y = _
        unfold SplineOut.mul
        rcases hcc : SplineOut.common X Y with e | ⟨a, b⟩
        · simp only [Bin.skip, if_true, hcc]; rfl
        · simp only [Bin.skip, if_true, hcc, bind, Except.bind, Bin.rows, Bin.pieces]
          split <;> rfl
    rw [hspec]
    refine ha.bind fun ab AB s hk _ h => ?_
    obtain ⟨h1, h2, h3, h4⟩ := h
    exact ((ref_finish h1 h2 (h3.trans hs) hv h4 x.per op hop).weaken hk.next).mono fun _ _ _ _ _ h => h.1

/-- Done in `st` the operation returns a new object with component `idx` as `v` says, or raises the exception of `v`. -/
def Returns (op : Op K) (st : St K) (shape idx : List ℕ) (v : Except PyErr (SplineOut K K)) : Prop :=
  match v with
  | .ok b => ∃ o', (op.exec st).objs = st.objs ++ [o'] ∧ o'.c.shape = shape ∧ (op.exec st).den o' idx = b
  | .error e => (op.prog.run st).1 = .error e ∧ (op.exec st).objs = st.objs

theorem returns_of_ref {op : Op K} {st : St K} {shape idx : List ℕ} {v : Except PyErr (SplineOut K K)} {x : M K (Obj K)}
    (hp : op.prog st = (x >>= fun o => (Pure.pure (some o) : M K (Option (Obj K)))) st)
    (h : Ref st.next st x v fun o' b st' => o'.c.shape = shape ∧ Is idx o' b st') : Returns op st shape idx v := by
  unfold Ref at h
  rw [run_bind] at hp
  unfold Returns Op.exec
  have hr : op.prog.run st = op.prog st := rfl
  rw [hr, hp]
  rcases hx : x st with ⟨e | o, s⟩ <;> rw [hx] at h <;> rcases v with e' | b
  · exact ⟨by rw [← h.2], h.1.objs⟩
  · exact h.2.elim
  · exact h.2.elim
  · obtain ⟨h1, h2, h3⟩ := h
    have e : (Pure.pure (some o) : M K (Option (Obj K))) s = (.ok (some o), s) := rfl
    simp only [e]
    refine ⟨o, by rw [h1.objs], h2, ?_⟩
    rw [← h3.den]
    rfl

theorem prog_get {β : Type} {st : St K} {i : ℕ} {o : Obj K} (ho : st.objs[i]? = some o) (f : Obj K → M K β) :
    (getObj i >>= f) st = f o st := by
  rw [run_bind]
  have : getObj i st = (.ok o, st) := by unfold getObj; rw [ho]
  rw [this]

end
end Npplus.Heap

namespace Npplus
open Heap Spec PwPoly
section
variable {K : Type} [Field K] [LinearOrder K]

/-- `deriv` on values of either class -/
def SplineOut.deriv {V : Type} [AddCommGroup V] [Module K V] : SplineOut K V → ℕ → Except PyErr (SplineOut K V)
  | .pw p, m => .ok (.pw (p.deriv m))
  | .per P, m => (P.deriv m).map .per

/-- `integ` on values of either class -/
def SplineOut.integ {V : Type} [AddCommGroup V] [Module K V] : SplineOut K V → ℕ → List V → K → Except PyErr (SplineOut K V)
  | .pw p, m, k, lbnd => (p.integ m k lbnd).map .pw
  | .per P, m, k, lbnd => (P.integ m k lbnd).map .per

/-- `-p` on values of either class -/
def SplineOut.neg {V : Type} [AddCommGroup V] [Module K V] : SplineOut K V → Except PyErr (SplineOut K V)
  | .pw p => .ok (.pw p.neg)
  | .per P => P.neg.map .per

/-- C103.  After any (safe) history `p.deriv(m)` of an object with array in the shared memory is, component by component, the derivative
of the values. -/
theorem C103_deriv (ops : List (Op K)) (hs : SafeAll St.init ops) {i : ℕ} {o : Obj K} (ho : (exec ops St.init).objs[i]? = some o) (m : ℕ)
    {idx : List ℕ} (hidx : ValidIdx o.c.shape idx) :
    Returns (.deriv i m) (exec ops St.init) o.c.shape idx (((exec ops St.init).den o idx).deriv m) := by
  have g := (exec_all ops St.init inv_init hs).1 o (List.mem_of_getElem? ho)
  have h := ref_deriv g m hidx
  have e : ((exec ops St.init).den o idx).deriv m = SplineOut.new o.per (((exec ops St.init).value o idx).deriv m) := by
    unfold St.den SplineOut.new
    cases o.per <;> rfl
  rw [e]
  exact returns_of_ref (prog_get ho _) h

/-- C103 for `p.integ(m, k, lbnd)` with `m` constants. -/
theorem C103_integ (ops : List (Op K)) (hs : SafeAll St.init ops) {i : ℕ} {o : Obj K} (ho : (exec ops St.init).objs[i]? = some o)
    (ks : List (List ℕ → K)) (lbnd : K) {idx : List ℕ} (hidx : ValidIdx o.c.shape idx) :
    Returns (.integ i ks lbnd) (exec ops St.init) o.c.shape idx (((exec ops St.init).den o idx).integ ks.length (ks.map fun k => k idx) lbnd) := by
  have g := (exec_all ops St.init inv_init hs).1 o (List.mem_of_getElem? ho)
  have h := ref_integ g ks lbnd hidx
  have e : ((exec ops St.init).den o idx).integ ks.length (ks.map fun k => k idx) lbnd =
      (((exec ops St.init).value o idx).integ ks.length (ks.map fun k => k idx) lbnd >>= SplineOut.new o.per) := by
    unfold St.den SplineOut.new
    cases hp : o.per
    · simp only [Bool.false_eq_true, if_false, SplineOut.integ]
      rcases ((exec ops St.init).value o idx).integ ks.length (ks.map fun k => k idx) lbnd with e | r <;> rfl
    · simp only [if_true]
      show Except.map SplineOut.per (PerPwPoly.integ ⟨(exec ops St.init).value o idx, _⟩ _ _ _) = _
      unfold PerPwPoly.integ
      rcases hq : ((exec ops St.init).value o idx).integ ks.length (ks.map fun k => k idx) lbnd with e | r <;> simp only [hq] <;> rfl
  rw [e]
  exact returns_of_ref (prog_get ho _) h

/-- C103 for `-p`. -/
theorem C103_neg (ops : List (Op K)) (hs : SafeAll St.init ops) {i : ℕ} {o : Obj K} (ho : (exec ops St.init).objs[i]? = some o)
    {idx : List ℕ} (hidx : ValidIdx o.c.shape idx) :
    Returns (.neg i) (exec ops St.init) o.c.shape idx ((exec ops St.init).den o idx).neg := by
  have g := (exec_all ops St.init inv_init hs).1 o (List.mem_of_getElem? ho)
  have h := ref_neg g hidx
  have e : ((exec ops St.init).den o idx).neg = SplineOut.new o.per ((exec ops St.init).value o idx).neg := by
    unfold St.den SplineOut.new
    cases o.per <;> rfl
  rw [e]
  exact returns_of_ref (prog_get ho _) h

/-- C103 for `p[key]`: component `idx` of the result is component `f idx` of `p`. -/
theorem C103_item (ops : List (Op K)) (hs : SafeAll St.init ops) {i : ℕ} {o : Obj K} (ho : (exec ops St.init).objs[i]? = some o)
    (shape : List ℕ) (f : List ℕ → List ℕ) (hf : ∀ idx, ValidIdx shape idx → ValidIdx o.c.shape (f idx)) (idx : List ℕ) :
    Returns (.item i shape f) (exec ops St.init) shape idx (.ok ((exec ops St.init).den o (f idx))) := by
  have g := (exec_all ops St.init inv_init hs).1 o (List.mem_of_getElem? ho)
  exact returns_of_ref (prog_get ho _) (ref_item g shape f hf)

/-- C103 for copies (but for the period, see C20). -/
theorem C103_copy (ops : List (Op K)) (hs : SafeAll St.init ops) {i : ℕ} {o : Obj K} (ho : (exec ops St.init).objs[i]? = some o)
    {idx : List ℕ} (hidx : ValidIdx o.c.shape idx) :
    Returns (.copy i) (exec ops St.init) o.c.shape idx (.ok ((exec ops St.init).den o idx)) := by
  have g := (exec_all ops St.init inv_init hs).1 o (List.mem_of_getElem? ho)
  exact returns_of_ref (prog_get ho _) (ref_copy g hidx)

/-- C103 for constructors. -/
theorem C103_make (ops : List (Op K)) (per : Bool) (xk : List K) (shape : List ℕ) (n : ℕ) (get : List ℕ → ℕ → List K)
    {idx : List ℕ} (hidx : ValidIdx shape idx) :
    Returns (.make per xk shape n get) (exec ops St.init) shape idx (SplineOut.new per ⟨xk, n, (List.range (xk.length + 1)).map (get idx)⟩) :=
  returns_of_ref rfl (ref_fresh per xk shape n get hidx)

/-- C103 for `p + q`, `p - q`, `p * q`, `p / q`: component `idx` of the result is made of the components of the operands that numpy's
broadcasting gives.  Missing: operands of different classes and different numbers of dimensions, where an operand may be changed (C98). -/
theorem C103_binary_partial (ops : List (Op K)) (hs : SafeAll St.init ops) {i j : ℕ} {x y : Obj K} (hx : (exec ops St.init).objs[i]? = some x)
    (hy : (exec ops St.init).objs[j]? = some y) (hc : x.c.shape.length = y.c.shape.length ∨ x.per = y.per) {shape idx : List ℕ}
    (hb : bcastShape x.c.shape y.c.shape = .ok shape) (hidx : ValidIdx shape idx)
    (hx1 : 1 ≤ ((exec ops St.init).value x []).n) (hy1 : 1 ≤ ((exec ops St.init).value y []).n) (op : Bin) :
    Returns (.binary i j op) (exec ops St.init) shape idx
      (op.pure ((exec ops St.init).den x (bcIdx x.c.shape idx)) ((exec ops St.init).den y (bcIdx y.c.shape idx))) := by
  have inv := (exec_all ops St.init inv_init hs).1
  have h := ref_binary (inv x (List.mem_of_getElem? hx)) (inv y (List.mem_of_getElem? hy)) hx1 hy1 hc hb hidx op
  refine returns_of_ref ?_ h
  show (getObj i >>= fun x => getObj j >>= fun y => binary x y op >>= fun a => (Pure.pure (some a) : M K (Option (Obj K)))) _ = _
  rw [prog_get hx, prog_get hy]

/-- C103 with C16 and C17: after any history the sum, difference and product of two objects of class PwPoly have, at every point, the sum,
difference and product of the operands' values, if their knots are well separated. -/
theorem C103_values [IsStrictOrderedRing K] [FloorRing K] (ops : List (Op K)) (hs : SafeAll St.init ops) {i j : ℕ} {x y : Obj K} (hx : (exec ops St.init).objs[i]? = some x)
    (hy : (exec ops St.init).objs[j]? = some y) (hxp : x.per = false) (hyp : y.per = false) {shape idx : List ℕ}
    (hb : bcastShape x.c.shape y.c.shape = .ok shape) (hidx : ValidIdx shape idx)
    (wx : WF ((exec ops St.init).value x (bcIdx x.c.shape idx))) (wy : WF ((exec ops St.init).value y (bcIdx y.c.shape idx)))
    {D : K} (hD : Separated (PwPoly.defaultTol K) D x.xk y.xk) (op : Bin) (f : K → K → K)
    (hf : op = .add ∧ f = (· + ·) ∨ op = .sub ∧ f = (· - ·) ∨ op = .mul ∧ f = (· * ·)) :
    ∃ o', ((Op.binary i j op).exec (exec ops St.init)).objs = (exec ops St.init).objs ++ [o'] ∧ o'.c.shape = shape ∧ ∀ t,
      (((Op.binary i j op).exec (exec ops St.init)).value o' idx).call t =
        f (((exec ops St.init).value x (bcIdx x.c.shape idx)).call t) (((exec ops St.init).value y (bcIdx y.c.shape idx)).call t) := by
  set st := exec ops St.init with hst
  have h := C103_binary_partial ops hs hx hy (.inr (hxp.trans hyp.symm)) hb hidx wx.pos wy.pos op
  have dx : st.den x (bcIdx x.c.shape idx) = .pw (st.value x (bcIdx x.c.shape idx)) := by unfold St.den; rw [hxp]; rfl
  have dy : st.den y (bcIdx y.c.shape idx) = .pw (st.value y (bcIdx y.c.shape idx)) := by unfold St.den; rw [hyp]; rfl
  rw [dx, dy] at h
  have key : ∀ r : PwPoly K K, op.pure (.pw (st.value x (bcIdx x.c.shape idx))) (.pw (st.value y (bcIdx y.c.shape idx))) = .ok (.pw r) →
      (∀ t, r.call t = f ((st.value x (bcIdx x.c.shape idx)).call t) ((st.value y (bcIdx y.c.shape idx)).call t)) →
      ∃ o', ((Op.binary i j op).exec st).objs = st.objs ++ [o'] ∧ o'.c.shape = shape ∧ ∀ t, (((Op.binary i j op).exec st).value o' idx).call t =
        f ((st.value x (bcIdx x.c.shape idx)).call t) ((st.value y (bcIdx y.c.shape idx)).call t) := by
    intro r hr hv
    rw [hr] at h
    obtain ⟨o', h1, h2, h3⟩ := h
    refine ⟨o', h1, h2, fun t => ?_⟩
    rw [← hv t]
    unfold St.den at h3
    split at h3
    · cases h3
    · rw [SplineOut.pw.inj h3]
  have hD' : Separated (PwPoly.defaultTol K) D (st.value x (bcIdx x.c.shape idx)).xk (st.value y (bcIdx y.c.shape idx)).xk := hD
  obtain ⟨r, s, hr, hs', hv⟩ := C16_separated wx wy hD'
  rcases hf with ⟨rfl, rfl⟩ | ⟨rfl, rfl⟩ | ⟨rfl, rfl⟩
  · refine key r ?_ fun t => (hv t).1
    show SplineOut.add _ _ = _
    rw [(C82_pw _ _).1, hr]; rfl
  · refine key s ?_ fun t => (hv t).2
    show SplineOut.sub _ _ = _
    rw [(C82_pw _ _).2, hs']; rfl
  · obtain ⟨r, hr, hv⟩ := C17_separated wx wy hD'
    refine key r ?_ hv
    show SplineOut.mul _ _ = _
    rw [C82_pw_mul, hr]; rfl

end

/-! ### the hypotheses are met: the line and the periodic vector of `exOps` -/

theorem exObj1 : (exec exOps St.init).objs[1]? = some ⟨false, [0, 1], ⟨1, [], id⟩⟩ := rfl
theorem exObj0 : (exec exOps St.init).objs[0]? = some ⟨true, [0, 1], ⟨0, [1], id⟩⟩ := rfl

/-- the sum of the line with itself is a new object with twice the coefficients -/
example : ∃ o', ((Op.binary 1 1 .add).exec (exec exOps St.init)).objs = (exec exOps St.init).objs ++ [o'] ∧
    ((Op.binary 1 1 .add).exec (exec exOps St.init)).value o' [] = ⟨[0, 1], 2, [[0, 0], [0, 2], [2, 0]]⟩ := by
  have h := C103_binary_partial exOps exOps_safe exObj1 exObj1 (.inl rfl) (shape := []) (idx := []) rfl ⟨rfl, by simp⟩ (by decide) (by decide) .add
  have e : ((exec exOps St.init).den ⟨false, [0, 1], ⟨1, [], id⟩⟩ (bcIdx [] [])) = .pw ⟨[0, 1], 2, [[0, 0], [0, 1], [1, 0]]⟩ := rfl
  have e2 : (⟨[0, 1], 2, [[0, 0], [0, 1], [1, 0]]⟩ : PwPoly ℚ ℚ).add ⟨[0, 1], 2, [[0, 0], [0, 1], [1, 0]]⟩ =
      .ok ⟨[0, 1], 2, [[0, 0], [0, 2], [2, 0]]⟩ := by decide +kernel
  have e3 : Bin.add.pure (.pw (⟨[0, 1], 2, [[0, 0], [0, 1], [1, 0]]⟩ : PwPoly ℚ ℚ)) (.pw ⟨[0, 1], 2, [[0, 0], [0, 1], [1, 0]]⟩) =
      .ok (.pw ⟨[0, 1], 2, [[0, 0], [0, 2], [2, 0]]⟩) := by
    show SplineOut.add _ _ = _
    rw [(C82_pw _ _).1, e2]; rfl
  simp only at h
  rw [e, e3] at h
  obtain ⟨o', h1, h2, h3⟩ := h
  refine ⟨o', h1, ?_⟩
  unfold St.den at h3
  split at h3
  · cases h3
  · exact SplineOut.pw.inj h3

/-- the square of the periodic vector -/
example : Returns (.binary 0 0 .mul) (exec exOps St.init) [1] [0]
    (SplineOut.mul ((exec exOps St.init).den ⟨true, [0, 1], ⟨0, [1], id⟩⟩ [0]) ((exec exOps St.init).den ⟨true, [0, 1], ⟨0, [1], id⟩⟩ [0])) :=
  C103_binary_partial exOps exOps_safe exObj0 exObj0 (.inl rfl) (shape := [1]) (idx := [0]) rfl ⟨rfl, by simp⟩ (by decide) (by decide) .mul

/-- a component of the periodic vector, a view of its memory -/
example : Returns (.item 0 [] fun _ => [0]) (exec exOps St.init) [] [] (.ok ((exec exOps St.init).den ⟨true, [0, 1], ⟨0, [1], id⟩⟩ [0])) :=
  C103_item exOps exOps_safe exObj0 [] (fun _ => [0]) (fun _ _ => ⟨rfl, by simp⟩) []

end Npplus
