import Verif.Model.Heap

/-!
# Property C98: PwPoly objects are immutable

Every history of operations on PwPoly and PerPwPoly objects, with their coefficient arrays in a shared memory.
-/

set_option linter.unusedSectionVars false
namespace Npplus.Heap

section
variable {K : Type} [Field K] [LinearOrder K]

/-- The memory below `N` and the user's objects are the same. -/
structure Keeps (N : ℕ) (st st' : St K) : Prop where
  next : st.next ≤ st'.next
  heap : ∀ r < N, st'.heap r = st.heap r
  objs : st'.objs = st.objs

theorem Keeps.refl (N : ℕ) (st : St K) : Keeps N st st := ⟨le_rfl, fun _ _ => rfl, rfl⟩
theorem Keeps.trans {N : ℕ} {a b c : St K} (h : Keeps N a b) (h' : Keeps N b c) : Keeps N a c :=
  ⟨h.next.trans h'.next, fun r hr => (h'.heap r hr).trans (h.heap r hr), h'.objs.trans h.objs⟩

/-- Started in `st` the program keeps what is below `N`, and its result satisfies `Q`. -/
def Tri {α : Type} (N : ℕ) (st : St K) (x : M K α) (Q : α → St K → Prop) : Prop :=
  Keeps N st (x st).2 ∧ ∀ a, (x st).1 = .ok a → Q a (x st).2

theorem run_bind {α β : Type} (x : M K α) (f : α → M K β) (st : St K) :
    (x >>= f) st = match x st with
      | (.ok a, st') => f a st'
      | (.error e, st') => (.error e, st') := by
  show (ExceptT.bindCont f (x st).1) (x st).2 = _
  rcases x st with ⟨_ | a, st'⟩ <;> rfl

theorem Tri.bind {α β : Type} {N : ℕ} {st : St K} {x : M K α} {f : α → M K β} {Q : α → St K → Prop} {R : β → St K → Prop}
    (h : Tri N st x Q) (h' : ∀ a st', Keeps N st st' → Q a st' → Tri N st' (f a) R) : Tri N st (x >>= f) R := by
  unfold Tri at h ⊢
  rw [run_bind]
  rcases hx : x st with ⟨e | a, st'⟩
  · rw [hx] at h
    exact ⟨h.1, fun a ha => by simp at ha⟩
  · rw [hx] at h
    obtain ⟨k, q⟩ := h
    have := h' a st' k (q a rfl)
    exact ⟨k.trans this.1, this.2⟩

theorem Tri.pure {α : Type} {N : ℕ} {st : St K} {a : α} {Q : α → St K → Prop} (h : Q a st) : Tri N st (pure a) Q :=
  ⟨Keeps.refl _ _, fun b hb => by cases hb; exact h⟩

theorem Tri.throw {α : Type} {N : ℕ} {st : St K} {e : PyErr} {Q : α → St K → Prop} : Tri N st (throw e : M K α) Q :=
  ⟨Keeps.refl _ _, fun b hb => by cases hb⟩

theorem Tri.mono {α : Type} {N : ℕ} {st : St K} {x : M K α} {Q R : α → St K → Prop} (h : Tri N st x Q) (hQ : ∀ a st', Keeps N st st' → Q a st' → R a st') :
    Tri N st x R := ⟨h.1, fun a ha => hQ a _ h.1 (h.2 a ha)⟩

theorem tri_read {N : ℕ} {st : St K} (v : View) :
    Tri N st (read v) fun b st' => st' = st ∧ b = ⟨(st.heap v.ref).n, (st.heap v.ref).m, fun idx i => (st.heap v.ref).get (v.comp idx) i⟩ :=
  ⟨Keeps.refl _ _, fun b hb => by cases hb; exact ⟨rfl, rfl⟩⟩

theorem tri_alloc {N : ℕ} {st : St K} (hN : N ≤ st.next) (shape : List ℕ) (b : Buf K) :
    Tri N st (alloc shape b) fun v st' => v.shape = shape ∧ v.comp = id ∧ N ≤ v.ref ∧ v.ref < st'.next ∧ st'.heap v.ref = b := by
  refine ⟨⟨Nat.le_succ _, fun r hr => ?_, rfl⟩, fun v hv => ?_⟩
  · exact Function.update_of_ne (by omega) _ _
  · cases hv
    exact ⟨rfl, rfl, hN, Nat.lt_succ_self _, Function.update_self _ _ _⟩

theorem tri_write {N : ℕ} {st : St K} {v : View} (hv : N ≤ v.ref) (f : Buf K → Buf K) :
    Tri N st (write v f) fun _ st' => st'.heap v.ref = f (st.heap v.ref) ∧ st'.next = st.next :=
  ⟨⟨le_rfl, fun r hr => Function.update_of_ne (by omega) _ _, rfl⟩, fun _ _ => ⟨Function.update_self _ _ _, rfl⟩⟩

/-- The semi-infinite pieces are the continuations of the first and the last one. -/
def Coherent (b : Buf K) (dx : K) (k : List ℕ) : Prop :=
  b.get k 0 = b.get k 1 ∧ b.get k (b.m - 1) = polyddx (b.get k (b.m - 2)) dx (b.n - 1)

/-- what holds for every object -/
structure Good (st : St K) (o : Obj K) : Prop where
  ref : o.c.ref < st.next
  m : (st.heap o.c.ref).m = o.xk.length + 1
  coh : o.per = true → 2 ≤ o.xk.length ∧ ∀ k, o.c.Sees k → Coherent (st.heap o.c.ref) (lastDx o.xk) k

theorem Good.keep {st st' : St K} {o : Obj K} (h : Good st o) (hk : Keeps st.next st st') : Good st' o := by
  have e := hk.heap _ h.ref
  exact ⟨h.ref.trans_le hk.next, by rw [e]; exact h.m, by rw [e]; exact h.coh⟩

theorem perInit_coherent {b : Buf K} {dx : K} {S : List ℕ → Prop} (hm : 3 ≤ b.m) {k : List ℕ} (hk : S k) :
    Coherent (b.perInit dx S) dx k := by
  unfold Coherent Buf.perInit
  simp only [if_pos hk, if_true, one_ne_zero, if_false]
  rw [if_neg (by omega), if_neg (show b.m - 1 ≠ 0 by omega), if_pos (by omega), if_neg (show b.m - 2 ≠ 0 by omega), if_neg (by omega)]
  exact ⟨rfl, rfl⟩

theorem perInit_eq {b : Buf K} {dx : K} {S : List ℕ → Prop} (h : ∀ k, S k → Coherent b dx k) : b.perInit dx S = b := by
  unfold Buf.perInit
  cases b with
  | mk n m get =>
    congr 1
    funext k i
    split_ifs with h1 h2 h3
    · rw [h2]; exact (h k h1).1.symm
    · have := (h k h1).2
      simp only at this
      rw [← this]
      congr 1
      simp only at h3
      omega
    · rfl
    · rfl

/-- `new` -/
theorem tri_new {N : ℕ} {st : St K} {per : Bool} {xk : List K} {c : View} (hr : c.ref < st.next) (hm : (st.heap c.ref).m = xk.length + 1)
    (h : per = true → 2 ≤ xk.length → N ≤ c.ref ∨ ∀ k, c.Sees k → Coherent (st.heap c.ref) (lastDx xk) k) :
    Tri N st (new per xk c) fun o st' => o = ⟨per, xk, c⟩ ∧ Good st' o := by
  unfold new
  cases per with
  | false => exact Tri.pure ⟨rfl, hr, hm, by simp⟩
  | true =>
    simp only [if_true]
    by_cases hx : xk.length < 2
    · simp only [if_pos hx]
      exact Tri.throw.bind fun a st' _ (hq : False) => hq.elim
    · simp only [if_neg hx]
      rcases h rfl (by omega) with h | h
      · refine (tri_write h _).bind fun _ st' _ hq => Tri.pure ⟨rfl, by rw [hq.2]; exact hr, ?_, fun _ => ⟨Nat.le_of_not_lt hx, fun k hk => ?_⟩⟩
        · rw [hq.1]; exact hm
        · rw [hq.1]; exact perInit_coherent (by omega) hk
      · have e : write c (Buf.perInit (lastDx xk) c.Sees) st = (.ok (), st) := by
          unfold write
          rw [perInit_eq h, Function.update_eq_self]
        have t : Tri N st (write c (Buf.perInit (lastDx xk) c.Sees)) fun _ st' => st' = st := by
          unfold Tri
          rw [e]
          exact ⟨Keeps.refl _ _, fun _ _ => rfl⟩
        refine t.bind fun _ st' _ hq => Tri.pure ⟨rfl, ?_⟩
        rw [hq]
        exact ⟨hr, hm, fun _ => ⟨Nat.le_of_not_lt hx, h⟩⟩

/-- an object made of the array of an object, or a fresh one -/
structure Arr (N : ℕ) (st : St K) (o : Obj K) (c : View) : Prop where
  ref : c.ref < st.next
  m : (st.heap c.ref).m = o.xk.length + 1
  ok : N ≤ c.ref ∨ c = o.c

theorem Arr.new {N : ℕ} {st st' : St K} {o : Obj K} (ho : Good st o) (hk : Keeps N st st') (hN : N = st.next) {c : View} (h : Arr N st' o c) :
    Tri N st' (Heap.new o.per o.xk c) fun o' st'' => Good st'' o' := by
  refine (tri_new h.ref h.m fun hp _ => ?_).mono fun a s _ h => h.2
  rcases h.ok with h | rfl
  · exact .inl h
  · right
    have := (ho.keep (hN ▸ hk)).coh hp
    exact this.2

theorem tri_derivLoop {N : ℕ} {o : Obj K} (m : ℕ) : ∀ (st : St K) (c : View), N ≤ st.next → Arr N st o c →
    Tri N st (derivLoop m c) fun c' st' => Arr N st' o c' := by
  induction m with
  | zero => intro st c _ h; exact Tri.pure h
  | succ m ih =>
    intro st c hN h
    refine (tri_read c).bind fun b st' _ hb => ?_
    obtain ⟨rfl, hb⟩ := hb
    have hbm : b.m = o.xk.length + 1 := by rw [hb]; exact h.m
    split
    · exact (tri_alloc hN _ _).mono fun v s _ hv => ⟨hv.2.2.2.1, by rw [hv.2.2.2.2]; exact hbm, .inl hv.2.2.1⟩
    · exact (tri_alloc hN _ _).bind fun v s hk hv => ih s v (hN.trans hk.next) ⟨hv.2.2.2.1, by rw [hv.2.2.2.2]; exact hbm, .inl hv.2.2.1⟩

theorem tri_integLoop {N : ℕ} {o : Obj K} {xk : List K} {ibnd : ℕ} {lb : K} (ks : List (List ℕ → K)) : ∀ (st : St K) (c : View), N ≤ st.next → Arr N st o c →
    Tri N st (integLoop xk ibnd lb ks c) fun c' st' => Arr N st' o c' := by
  induction ks with
  | nil => intro st c _ h; exact Tri.pure h
  | cons k ks ih =>
    intro st c hN h
    refine (tri_read c).bind fun b st' _ hb => ?_
    obtain ⟨rfl, hb⟩ := hb
    have hbm : b.m = o.xk.length + 1 := by rw [hb]; exact h.m
    refine (tri_alloc hN _ _).bind fun v s hk hv => ?_
    have hs : N ≤ s.next := hN.trans hk.next
    have main : ∀ s', N ≤ s'.next → v.ref < s'.next → (s'.heap v.ref).m = o.xk.length + 1 →
        Tri N s' (do write v fun b => { b with get := fun idx i => PwPoly.addHead (k idx - polyfun (b.get idx ibnd) lb) (b.get idx i) }
                     integLoop xk ibnd lb ks v) fun c' st' => Arr N st' o c' := by
      intro s' h1 h2 h3
      refine (tri_write hv.2.2.1 _).bind fun _ s'' hk'' hq => ?_
      exact ih s'' v (h1.trans hk''.next) ⟨by rw [hq.2]; exact h2, by rw [hq.1]; exact h3, .inl hv.2.2.1⟩
    split
    · refine (tri_write hv.2.2.1 _).bind fun _ s' hk' hq => ?_
      refine main s' (hs.trans hk'.next) (by rw [hq.2]; exact hv.2.2.2.1) ?_
      rw [hq.1, hv.2.2.2.2]; exact hbm
    · exact main s hs hv.2.2.2.1 (by rw [hv.2.2.2.2]; exact hbm)

theorem tri_deriv {st : St K} {o : Obj K} (h : Good st o) (m : ℕ) : Tri st.next st (deriv o m) fun o' st' => Good st' o' :=
  (tri_derivLoop m st o.c le_rfl ⟨h.ref, h.m, .inr rfl⟩).bind fun _ _ hk hc => Arr.new h hk rfl hc

theorem tri_integ {st : St K} {o : Obj K} (h : Good st o) (ks : List (List ℕ → K)) (lbnd : K) :
    Tri st.next st (integ o ks lbnd) fun o' st' => Good st' o' :=
  (tri_integLoop ks st o.c le_rfl ⟨h.ref, h.m, .inr rfl⟩).bind fun _ _ hk hc => Arr.new h hk rfl hc

theorem tri_roots {st : St K} {o : Obj K} (value : K) (dxn : ℕ → ℕ → K) : Tri st.next st (roots o value dxn) fun _ _ => True := by
  refine (tri_read o.c).bind fun b st' _ hb => ?_
  obtain ⟨rfl, hb⟩ := hb
  refine (tri_alloc le_rfl _ _).bind fun v s _ hv => ?_
  split
  · exact (tri_write hv.2.2.1 _).bind fun _ s' _ _ => (tri_write hv.2.2.1 _).mono fun _ _ _ _ => trivial
  · exact (tri_write hv.2.2.1 _).mono fun _ _ _ _ => trivial

theorem tri_neg {st : St K} {o : Obj K} (h : Good st o) : Tri st.next st (neg o) fun o' st' => Good st' o' := by
  refine (tri_read o.c).bind fun b st' _ hb => ?_
  obtain ⟨rfl, hb⟩ := hb
  exact (tri_alloc le_rfl _ _).bind fun v s hk hv =>
    Arr.new h hk rfl ⟨hv.2.2.2.1, by rw [hv.2.2.2.2, hb]; exact h.m, .inl hv.2.2.1⟩

theorem tri_copy {st : St K} {o : Obj K} (h : Good st o) : Tri st.next st (copy o) fun o' st' => Good st' o' := by
  refine (tri_read o.c).bind fun b st' _ hb => ?_
  obtain ⟨rfl, hb⟩ := hb
  refine (tri_alloc le_rfl _ _).bind fun v s hk hv => Tri.pure ⟨hv.2.2.2.1, ?_, fun hp => ⟨(h.coh hp).1, fun k hkk => ?_⟩⟩
  · show (s.heap v.ref).m = _
    rw [hv.2.2.2.2, hb]; exact h.m
  · obtain ⟨idx, h1, h2⟩ := hkk
    rw [hv.2.1] at h2
    rw [hv.1] at h1
    have := (h.coh hp).2 (o.c.comp idx) ⟨idx, h1, rfl⟩
    show Coherent (s.heap v.ref) _ k
    rw [hv.2.2.2.2, hb, ← h2]
    exact this

theorem tri_item {st : St K} {o : Obj K} (h : Good st o) (shape : List ℕ) (f : List ℕ → List ℕ) :
    Tri st.next st (item o shape f) fun o' st' => Good st' o' := by
  unfold item
  split
  · exact Tri.throw.bind fun a st' _ (hq : False) => hq.elim
  · rename_i hv
    refine (tri_new (c := ⟨o.c.ref, shape, fun idx => o.c.comp (f idx)⟩) h.ref h.m fun hp _ => .inr ?_).mono fun a s _ h => h.2
    rintro k ⟨idx, h1, rfl⟩
    refine (h.coh hp).2 _ ⟨f idx, ?_, rfl⟩
    by_contra hn
    exact hv ⟨idx, h1, hn⟩

theorem tri_fresh {st : St K} (per : Bool) (xk : List K) (shape : List ℕ) (n : ℕ) (get : List ℕ → ℕ → List K) :
    Tri st.next st (fresh per xk shape n get) fun o' st' => Good st' o' :=
  (tri_alloc le_rfl _ _).bind fun v s _ hv =>
    (tri_new hv.2.2.2.1 (by rw [hv.2.2.2.2]) fun _ _ => .inl hv.2.2.1).mono fun a s _ h => h.2

/-- an argument of a binary operation: fresh, or unchanged -/
structure Arg (N : ℕ) (st : St K) (o o' : Obj K) : Prop where
  good : Good st o'
  ok : N ≤ o'.c.ref ∨ o' = o
  shape : o'.c.shape.length = o.c.shape.length

theorem tri_pad {N : ℕ} {st : St K} {o : Obj K} (hN : N ≤ st.next) (h : Good st o) (per : Bool) (nd : ℕ) :
    Tri N st (pad per o nd) fun o' st' => Arg N st' o o' ∧ ((st.heap o.c.ref).n ≠ nd → N ≤ o'.c.ref) := by
  refine (tri_read o.c).bind fun b st' _ hb => ?_
  obtain ⟨rfl, hb⟩ := hb
  have hbn : b.n = (st'.heap o.c.ref).n := by rw [hb]
  split
  · refine (tri_alloc hN _ _).bind fun v s _ hv => ?_
    refine (tri_new hv.2.2.2.1 (by rw [hv.2.2.2.2, hb]; exact h.m) fun _ _ => .inl hv.2.2.1).mono fun a s' _ h => ?_
    obtain ⟨rfl, hg⟩ := h
    exact ⟨⟨hg, .inl hv.2.2.1, by rw [hv.1]⟩, fun _ => hv.2.2.1⟩
  · rename_i hne
    refine Tri.pure ⟨⟨h, .inr rfl, rfl⟩, fun hh => ?_⟩
    rw [hbn] at hne
    exact absurd hh hne

theorem sees_lift {v : View} {k : ℕ} {t : List ℕ} (h : (v.lift k).Sees t) : v.Sees t := by
  obtain ⟨idx, ⟨h1, h2⟩, h3⟩ := h
  refine ⟨idx.drop k, ⟨?_, fun j hj => ?_⟩, h3⟩
  · simp [View.lift] at h1 ⊢
    omega
  · have := h2 (k + j) (by simp [View.lift]; omega)
    simpa [View.lift, List.getD_eq_getElem?_getD, List.getElem?_append] using this

/-- The operations that change no existing object: all but `p + q`, `p - q`, `p * q` for a periodic `p`, a `q` that is not, of fewer
dimensions (and, for sum and difference, not of a lower degree). -/
def Safe (st : St K) : Op K → Prop
  | .binary o q op => ∀ x y, st.objs[o]? = some x → st.objs[q]? = some y →
    ¬ (x.per = true ∧ y.per = false ∧ y.c.shape.length < x.c.shape.length ∧
      (op.skip = true ∨ (st.heap x.c.ref).n ≤ (st.heap y.c.ref).n))
  | _ => True

theorem Keeps.weaken {N N' : ℕ} {st st' : St K} (h : Keeps N' st st') (hN : N ≤ N') : Keeps N st st' :=
  ⟨h.next, fun r hr => h.heap r (hr.trans_le hN), h.objs⟩

theorem Tri.weaken {α : Type} {N N' : ℕ} {st : St K} {x : M K α} {Q : α → St K → Prop} (h : Tri N' st x Q) (hN : N ≤ N') :
    Tri N st x fun a s => Q a s ∧ Keeps N' st s := ⟨h.1.weaken hN, fun a ha => ⟨h.2 a ha, h.1⟩⟩

theorem tri_operand {st : St K} {o : Obj K} (h : Good st o) (skip per : Bool) (nd : ℕ) :
    Tri st.next st (operand skip per o nd) fun o' st' => Arg st.next st' o o' ∧ (skip = false → (st.heap o.c.ref).n ≠ nd → st.next ≤ o'.c.ref) := by
  unfold operand
  cases skip with
  | true => exact Tri.pure ⟨⟨h, .inr rfl, rfl⟩, by simp⟩
  | false => exact (tri_pad le_rfl h _ _).mono fun o' s _ h => ⟨h.1, fun _ => h.2⟩

theorem tri_align {N : ℕ} {st : St K} {per : Bool} {this other : Obj K} (h1 : Good st this) (h2 : Good st other)
    (p1 : per = true → N ≤ this.c.ref ∨ this.per = true)
    (p2 : per = true → other.c.shape.length < this.c.shape.length → N ≤ other.c.ref ∨ other.per = true) :
    Tri N st (align per this other) fun _ _ => True := by
  unfold align
  simp only
  split
  · refine Tri.bind (Q := fun _ _ => True) ?_ fun _ _ _ _ => Tri.pure trivial
    refine (tri_new (c := this.c.lift _) h1.ref h1.m fun hp _ => ?_).mono fun _ _ _ _ => trivial
    rcases p1 hp with h | h
    · exact .inl h
    · exact .inr fun k hk => (h1.coh h).2 k (sees_lift hk)
  · split
    · rename_i hlt
      refine Tri.bind (Q := fun _ _ => True) ?_ fun _ _ _ _ => Tri.pure trivial
      refine (tri_new (c := other.c.lift _) h2.ref h2.m fun hp _ => ?_).mono fun _ _ _ _ => trivial
      rcases p2 hp hlt with h | h
      · exact .inl h
      · exact .inr fun k hk => (h2.coh h).2 k (sees_lift hk)
    · exact Tri.pure trivial

theorem tri_binaryArgs {st : St K} {x y : Obj K} (hx : Good st x) (hy : Good st y) (skip : Bool)
    (hs : ¬ (x.per = true ∧ y.per = false ∧ y.c.shape.length < x.c.shape.length ∧
      (skip = true ∨ (st.heap x.c.ref).n ≤ (st.heap y.c.ref).n))) :
    Tri st.next st (binaryArgs x y skip) fun _ _ => True := by
  refine (tri_read x.c).bind fun a s1 _ ha => ?_
  obtain ⟨rfl, ha⟩ := ha
  refine (tri_read y.c).bind fun b s1 _ hb => ?_
  obtain ⟨rfl, hb⟩ := hb
  have han : a.n = (s1.heap x.c.ref).n := by rw [ha]
  have hbn : b.n = (s1.heap y.c.ref).n := by rw [hb]
  refine (tri_operand hx _ _ _).bind fun this s2 hk2 h1 => ?_
  have hy2 : Good s2 y := hy.keep hk2
  refine ((tri_operand hy2 _ _ _).weaken hk2.next).bind fun other s3 hk3 h2 => ?_
  obtain ⟨⟨h2, h2'⟩, hk3'⟩ := h2
  refine tri_align (h1.1.good.keep hk3') h2.good (fun hp => ?_) (fun hp hlt => ?_)
  · rcases h1.1.ok with h | h
    · exact .inl h
    · right; rw [h]; exact hp
  · rcases h2.ok with h | h
    · exact .inl (hk2.next.trans h)
    · by_contra hc
      push Not at hc
      refine hs ⟨hp, by rw [← h]; simpa using hc.2, by rw [h1.1.shape, h] at hlt; exact hlt, ?_⟩
      by_contra hcc
      push Not at hcc
      have hne : (s2.heap y.c.ref).n ≠ max a.n b.n := by
        rw [hk2.heap _ hy.ref, ← hbn]
        have := le_max_left a.n b.n
        omega
      have := h2' (by simpa using hcc.1) hne
      have := hk2.next
      have := hc.1
      omega

theorem tri_addknots {N : ℕ} {st : St K} (hN : N ≤ st.next) (o : Obj K) (u : List K) : Tri N st (addknots o u) fun o' st' => Good st' o' := by
  refine (tri_read o.c).bind fun b st' _ hb => ?_
  obtain ⟨rfl, hb⟩ := hb
  refine (tri_alloc hN _ _).bind fun v s _ hv => ?_
  exact (tri_new hv.2.2.2.1 (by rw [hv.2.2.2.2]) fun _ _ => .inl hv.2.2.1).mono fun a s _ h => h.2

theorem tri_common {N : ℕ} {st : St K} (hN : N ≤ st.next) (this other : Obj K) : Tri N st (common this other) fun _ _ => True := by
  unfold common
  split
  · exact Tri.throw
  · exact (tri_addknots hN _ _).bind fun a s hk _ => (tri_addknots (hN.trans hk.next) _ _).bind fun b s _ _ => Tri.pure trivial
  · exact Tri.pure trivial

theorem tri_finish {N : ℕ} {st : St K} (hN : N ≤ st.next) (per : Bool) (op : Bin) (this other : Obj K) :
    Tri N st (finish per op this other) fun o' st' => Good st' o' := by
  have main : Tri N st (do
      let a ← read this.c
      let b ← read other.c
      match bcastShape this.c.shape other.c.shape with
      | .error e => throw e
      | .ok shape => do
        let c ← alloc shape ⟨op.rows a.n b.n, this.xk.length + 1, fun _ _ => List.replicate (op.rows a.n b.n) 0⟩
        write c fun buf => { buf with get := fun idx i => (op.pieces a.n b.n ((List.range a.m).map fun i => a.get (bcIdx this.c.shape idx) i)
          ((List.range b.m).map fun i => b.get (bcIdx other.c.shape idx) i)).getD i [] }
        new per this.xk c) fun o' st' => Good st' o' := by
    refine (tri_read this.c).bind fun a s _ ha => ?_
    obtain ⟨rfl, ha⟩ := ha
    refine (tri_read other.c).bind fun b s _ hb => ?_
    obtain ⟨rfl, hb⟩ := hb
    split
    · exact Tri.throw
    · refine (tri_alloc hN _ _).bind fun v s1 hk1 hv => ?_
      refine (tri_write hv.2.2.1 _).bind fun _ s2 hk2 hq => ?_
      exact (tri_new (by rw [hq.2]; exact hv.2.2.2.1) (by rw [hq.1, hv.2.2.2.2]) fun _ _ => .inl hv.2.2.1).mono fun a s _ h => h.2
  unfold finish
  cases op with
  | div => exact Tri.throw.bind fun a st' _ (hq : False) => hq.elim
  | add => exact main
  | sub => exact main
  | mul => exact main

theorem tri_binary {st : St K} {x y : Obj K} (hx : Good st x) (hy : Good st y) (op : Bin)
    (hs : ¬ (x.per = true ∧ y.per = false ∧ y.c.shape.length < x.c.shape.length ∧
      (op.skip = true ∨ (st.heap x.c.ref).n ≤ (st.heap y.c.ref).n))) :
    Tri st.next st (binary x y op) fun o' st' => Good st' o' := by
  refine (tri_binaryArgs hx hy op.skip hs).bind fun ab s hk _ => ?_
  obtain ⟨a, b⟩ := ab
  refine (tri_common hk.next a b).bind fun ab s' hk' _ => ?_
  obtain ⟨a, b⟩ := ab
  exact tri_finish (hk.next.trans hk'.next) _ _ _ _

/-- all the objects are good -/
def Inv (st : St K) : Prop := ∀ o ∈ st.objs, Good st o

theorem tri_getObj {st : St K} (h : Inv st) (o : ℕ) : Tri st.next st (getObj o) fun x st' => st' = st ∧ Good st x ∧ st.objs[o]? = some x := by
  unfold Tri getObj
  rcases hh : st.objs[o]? with _ | x
  · exact ⟨Keeps.refl _ _, fun a ha => by simp at ha⟩
  · exact ⟨Keeps.refl _ _, fun a ha => by cases ha; exact ⟨rfl, h _ (List.mem_of_getElem? hh), rfl⟩⟩

theorem tri_prog {st : St K} (h : Inv st) (op : Op K) (hs : Safe st op) :
    Tri st.next st op.prog fun r st' => ∀ o, r = some o → Good st' o := by
  have fin : ∀ {st : St K} {x : M K (Obj K)}, Tri st.next st x (fun o' st' => Good st' o') →
      Tri st.next st (do return some (← x)) fun r st' => ∀ o, r = some o → Good st' o := fun hx =>
    hx.bind fun a s _ ha => Tri.pure fun o ho => by cases ho; exact ha
  cases op with
  | make per xk shape n get => exact fin (tri_fresh _ _ _ _ _)
  | fresh o xk shape n get => exact (tri_getObj h o).bind fun x s _ hx => by obtain ⟨rfl, hx, _⟩ := hx; exact fin (tri_fresh _ _ _ _ _)
  | deriv o m => exact (tri_getObj h o).bind fun x s _ hx => by obtain ⟨rfl, hx, _⟩ := hx; exact fin (tri_deriv hx _)
  | integ o ks lbnd => exact (tri_getObj h o).bind fun x s _ hx => by obtain ⟨rfl, hx, _⟩ := hx; exact fin (tri_integ hx _ _)
  | neg o => exact (tri_getObj h o).bind fun x s _ hx => by obtain ⟨rfl, hx, _⟩ := hx; exact fin (tri_neg hx)
  | pos o => exact fin ((tri_getObj h o).mono fun x s _ hx => by rw [hx.1]; exact hx.2.1)
  | copy o => exact (tri_getObj h o).bind fun x s _ hx => by obtain ⟨rfl, hx, _⟩ := hx; exact fin (tri_copy hx)
  | item o shape f => exact (tri_getObj h o).bind fun x s _ hx => by obtain ⟨rfl, hx, _⟩ := hx; exact fin (tri_item hx _ _)
  | roots o value dxn =>
    exact (tri_getObj h o).bind fun x s _ hx => by
      obtain ⟨rfl, hx, _⟩ := hx
      exact (tri_roots value dxn).bind fun _ _ _ _ => Tri.pure fun o ho => by simp at ho
  | binary o q op =>
    refine (tri_getObj h o).bind fun x s _ hx => ?_
    obtain ⟨rfl, hx, hxo⟩ := hx
    refine (tri_getObj h q).bind fun y s _ hy => ?_
    obtain ⟨rfl, hy, hyo⟩ := hy
    exact fin (tri_binary hx hy _ (hs x y hxo hyo))

theorem exec_keeps {st : St K} (h : Inv st) (op : Op K) (hs : Safe st op) :
    Inv (op.exec st) ∧ (∀ r < st.next, (op.exec st).heap r = st.heap r) ∧ st.next ≤ (op.exec st).next ∧ st.objs <+: (op.exec st).objs := by
  obtain ⟨hk, hq⟩ := tri_prog h op hs
  unfold Op.exec
  show Inv (match op.prog st with | (.ok (some o), st) => _ | (_, st) => _) ∧ _
  rcases hp : op.prog st with ⟨_ | _ | o, st'⟩
  all_goals rw [hp] at hk hq
  all_goals have hinv : Inv st' := fun o' ho => (h o' (by rw [← hk.objs]; exact ho)).keep hk
  · have e : op.prog.run st = (Except.error _, st') := hp
    rw [e]
    exact ⟨hinv, hk.heap, hk.next, by rw [hk.objs]⟩
  · have e : op.prog.run st = (Except.ok none, st') := hp
    rw [e]
    exact ⟨hinv, hk.heap, hk.next, by rw [hk.objs]⟩
  · have e : op.prog.run st = (Except.ok (some o), st') := hp
    rw [e]
    refine ⟨fun o' ho => ?_, hk.heap, hk.next, ?_⟩
    · rcases List.mem_append.1 ho with ho | ho
      · exact ⟨(hinv o' ho).ref, (hinv o' ho).m, (hinv o' ho).coh⟩
      · rw [List.mem_singleton.1 ho]
        have := hq _ rfl o rfl
        exact ⟨this.ref, this.m, this.coh⟩
    · show st.objs <+: st'.objs ++ [o]
      rw [hk.objs]
      exact List.prefix_append _ _

/-- every operation of the history is safe when it is done -/
def SafeAll (st : St K) : List (Op K) → Prop
  | [] => True
  | op :: ops => Safe st op ∧ SafeAll (op.exec st) ops

theorem exec_all (ops : List (Op K)) : ∀ (st : St K), Inv st → SafeAll st ops →
    Inv (exec ops st) ∧ (∀ r < st.next, (exec ops st).heap r = st.heap r) ∧ st.objs <+: (exec ops st).objs := by
  induction ops with
  | nil => intro st h _; exact ⟨h, fun _ _ => rfl, List.prefix_refl _⟩
  | cons op ops ih =>
    intro st h hs
    obtain ⟨h1, h2, h3, h4⟩ := exec_keeps h op hs.1
    obtain ⟨a, b, c⟩ := ih _ h1 hs.2
    exact ⟨a, fun r hr => (b r (hr.trans_le h3)).trans (h2 r hr), h4.trans c⟩

theorem inv_init : Inv (St.init : St K) := fun _ h => by simp [St.init] at h

end
end Npplus.Heap

namespace Npplus
open Heap
section
variable {K : Type} [Field K] [LinearOrder K]

/-- C98.  After any history of operations, any further operations leave every object the user has as it is: the same knots and the same
coefficients, hence the same values.  Missing: the operations that are not `Safe`. -/
theorem C98_unchanged_partial (ops ops' : List (Op K)) (h : SafeAll St.init ops) (h' : SafeAll (exec ops St.init) ops') {i : ℕ} {o : Obj K}
    (ho : (exec ops St.init).objs[i]? = some o) :
    (exec ops' (exec ops St.init)).objs[i]? = some o ∧
      ∀ idx, (exec ops' (exec ops St.init)).value o idx = (exec ops St.init).value o idx := by
  obtain ⟨a, _, _⟩ := exec_all ops St.init inv_init h
  obtain ⟨_, b, c⟩ := exec_all ops' _ a h'
  have hi : i < (exec ops St.init).objs.length := (List.getElem?_eq_some_iff.1 ho).1
  refine ⟨?_, fun idx => ?_⟩
  · obtain ⟨t, ht⟩ := c
    rw [← ht, List.getElem?_append_left hi]
    exact ho
  · unfold St.value
    rw [b _ (a o (List.mem_of_getElem? ho)).ref]

/-! ### the operations that change an operand -/

theorem heap_perInit_value {y : Obj K} {st st' : St K} {idx : List ℕ} (hm : (st.heap y.c.ref).m = y.xk.length + 1) (h2 : 2 ≤ y.xk.length)
    (hs : y.c.Sees (y.c.comp idx)) {k : ℕ} (hsl : (y.c.lift k).Sees (y.c.comp idx))
    (hst : st'.heap y.c.ref = (st.heap y.c.ref).perInit (lastDx y.xk) (y.c.lift k).Sees) :
    (PerPwPoly.new (st.value y idx)).map (·.base) = .ok (st'.value y idx) := by
  unfold PerPwPoly.new St.value
  simp only
  rw [if_neg (by omega), hst]
  simp only [Except.map, Buf.perInit, if_pos hsl]
  congr 2
  refine List.ext_getElem (by simp) fun i h1 h3 => ?_
  simp only [List.length_set, List.length_map, List.length_range] at h1
  have hmm : 3 ≤ (st.heap y.c.ref).m := by omega
  have e1 : ((List.range (st.heap y.c.ref).m).map fun i => (st.heap y.c.ref).get (y.c.comp idx) i).getD 1 [] = (st.heap y.c.ref).get (y.c.comp idx) 1 := by
    rw [List.getD_eq_getElem _ _ (by simp; omega)]; simp
  rw [List.getElem_set]
  simp only [List.getElem_map, List.getElem_range, List.length_set, List.length_map, List.length_range]
  by_cases hi : i + 1 = (st.heap y.c.ref).m
  · rw [if_pos (by omega), if_neg (by omega), if_pos hi, List.getD_eq_getElem _ _ (by simp; omega), List.getElem_set, if_neg (by omega)]
    simp only [List.getElem_map, List.getElem_range]
    congr 1
  · rw [if_neg (by omega)]
    by_cases h0 : i = 0
    · subst h0
      simp only [List.getElem_set_self, if_true]
      exact e1
    · rw [List.getElem_set, if_neg (by omega), if_neg h0, if_neg hi]
      simp

/-- C98 refuted: the product `p * q` of a periodic `p` and a `q` of fewer dimensions that is not periodic (at least two knots) changes
`q`: the pieces before its first and after its last knot are replaced by continuations of the neighbouring pieces, as in the
periodic function with the coefficients of `q`. -/
theorem C98_product_changes_refuted {st : St K} (hinv : Inv st) {o q : ℕ} {x y : Obj K} (hx : st.objs[o]? = some x) (hy : st.objs[q]? = some y)
    (hxp : x.per = true) (hyp : y.per = false) (hlt : y.c.shape.length < x.c.shape.length) (h2 : 2 ≤ y.xk.length) {idx : List ℕ}
    (hidx : ValidIdx y.c.shape idx) :
    (PerPwPoly.new (st.value y idx)).map (·.base) = .ok (((Op.binary o q .mul).exec st).value y idx) := by
  have gx := hinv x (List.mem_of_getElem? hx)
  have gy := hinv y (List.mem_of_getElem? hy)
  set k := x.c.shape.length - y.c.shape.length with hk
  have hsl : (y.c.lift k).Sees (y.c.comp idx) := by
    refine ⟨List.replicate k 0 ++ idx, ⟨by simp [View.lift, hidx.1], fun j hj => ?_⟩, by simp [View.lift]⟩
    simp only [View.lift, List.length_append, List.length_replicate] at hj ⊢
    rcases Nat.lt_or_ge j k with h | h
    · simp [List.getD_eq_getElem?_getD, List.getElem?_append, h]
    · have := hidx.2 (j - k) (by omega)
      simpa [List.getD_eq_getElem?_getD, List.getElem?_append, Nat.not_lt.2 h] using this
  refine heap_perInit_value gy.m h2 ⟨idx, hidx, rfl⟩ (k := k) hsl ?_
  -- the state after the temporary objects are made
  set st1 : St K := { st with heap := Function.update st.heap y.c.ref ((st.heap y.c.ref).perInit (lastDx y.xk) (y.c.lift k).Sees) } with hst1
  have hargs : binaryArgs x y true st = (.ok (x, ⟨true, y.xk, y.c.lift k⟩), st1) := by
    have halign : align true x y st = (.ok (x, ⟨true, y.xk, y.c.lift k⟩), st1) := by
      unfold align
      rw [if_neg (by omega), if_pos hlt, run_bind]
      have : new true y.xk (y.c.lift k) st = (.ok ⟨true, y.xk, y.c.lift k⟩, st1) := by
        unfold new
        simp only [if_true, if_neg (show ¬ y.xk.length < 2 by omega)]
        rw [run_bind]
        rfl
      rw [this]
      rfl
    show binaryArgs x y true st = _
    unfold binaryArgs
    rw [run_bind]
    have r1 : ∀ (v : View) (s : St K), read v s = (.ok ⟨(s.heap v.ref).n, (s.heap v.ref).m, fun idx i => (s.heap v.ref).get (v.comp idx) i⟩, s) :=
      fun _ _ => rfl
    rw [r1]
    simp only
    rw [run_bind, r1]
    simp only [operand, if_true]
    rw [run_bind]
    show ((fun this : Obj K => (pure y : M K (Obj K)) >>= fun other => align x.per this other) x) st = _
    simp only
    rw [run_bind, hxp]
    exact halign
  set rest : M K (Obj K) := (do
    let (this, other) ← common x ⟨true, y.xk, y.c.lift k⟩
    finish x.per .mul this other) with hrest
  have tail : Tri st.next st1 rest fun _ _ => True := by
    refine (tri_common (N := st.next) (st := st1) le_rfl _ _).bind fun ab s hk' _ => ?_
    obtain ⟨a, b⟩ := ab
    exact (tri_finish (N := st.next) hk'.next _ _ _ _).mono fun _ _ _ _ => trivial
  have hb : (binary x y .mul) st = rest st1 := by
    unfold binary
    rw [run_bind]
    simp only [Bin.skip, hargs]
    rfl
  have hprog : (Op.binary o q .mul).prog.run st = match (binary x y .mul) st with
      | (.ok a, st') => (.ok (some a), st')
      | (.error e, st') => (.error e, st') := by
    show (getObj o >>= fun x => getObj q >>= fun y => binary x y .mul >>= fun a => (pure (some a) : M K (Option (Obj K)))) st = _
    rw [run_bind]
    have e1 : getObj o st = (.ok x, st) := by unfold getObj; rw [hx]
    have e2 : getObj q st = (.ok y, st) := by unfold getObj; rw [hy]
    rw [e1]
    simp only
    rw [run_bind, e2]
    simp only
    rw [run_bind]
    rcases binary x y .mul st with ⟨_ | a, s'⟩ <;> rfl
  have key : ((Op.binary o q .mul).exec st).heap y.c.ref = st1.heap y.c.ref := by
    have := tail.1.heap y.c.ref gy.ref
    rw [← hb] at this
    unfold Op.exec
    rw [hprog]
    rcases hbb : binary x y .mul st with ⟨_ | a, s'⟩ <;> rw [hbb] at this <;> exact this
  rw [key, hst1]
  exact Function.update_self _ _ _

end

/-! ### an example: a line, constant beyond its ends, multiplied by a periodic vector -/

/-- the line through (0,0) and (1,1) and a periodic vector function -/
def exOps : List (Op ℚ) :=
  [.make true [0, 1] [1] 1 (fun _ _ => [1]), .make false [0, 1] [] 2 (fun _ i => if i = 0 then [0, 0] else if i = 1 then [0, 1] else [1, 0])]

theorem exOps_safe : SafeAll St.init exOps := ⟨trivial, trivial, trivial⟩

/-- C98 refuted: `q(2) = 1`; after `p * q` has been computed `q(2) = 2`. -/
theorem C98_example_refuted : ∃ (ops : List (Op ℚ)) (o : Obj ℚ), SafeAll St.init ops ∧ (exec ops St.init).objs[1]? = some o ∧
    ((exec ops St.init).value o []).call 2 = 1 ∧
    ((exec (ops ++ [.binary 0 1 .mul]) St.init).value o []).call 2 = 2 := by
  have h1 : (exec exOps St.init).objs[1]? = some ⟨false, [0, 1], ⟨1, [], id⟩⟩ := rfl
  have h0 : (exec exOps St.init).objs[0]? = some ⟨true, [0, 1], ⟨0, [1], id⟩⟩ := rfl
  have hv : (exec exOps St.init).value ⟨false, [0, 1], ⟨1, [], id⟩⟩ [] = ⟨[0, 1], 2, [[0, 0], [0, 1], [1, 0]]⟩ := rfl
  have hi := (exec_all exOps St.init inv_init exOps_safe).1
  refine ⟨exOps, _, exOps_safe, h1, by rw [hv]; decide +kernel, ?_⟩
  have := C98_product_changes_refuted hi h0 h1 rfl rfl (by simp) (by simp) (idx := []) ⟨rfl, by simp⟩
  rw [hv] at this
  have hexec : exec (exOps ++ [.binary 0 1 .mul]) St.init = (Op.binary 0 1 .mul).exec (exec exOps St.init) := by
    unfold exec; rw [List.foldl_append]; rfl
  rw [hexec]
  have e : (PerPwPoly.new (⟨[0, 1], 2, [[0, 0], [0, 1], [1, 0]]⟩ : PwPoly ℚ ℚ)).map (·.base) = .ok ⟨[0, 1], 2, [[0, 1], [0, 1], [1, 1]]⟩ := by
    decide +kernel
  rw [e] at this
  rw [← Except.ok.inj this]
  decide +kernel

/-- a history of safe operations, with shared arrays: a derivative of order 0, a component, a product the other way round -/
example : SafeAll (exec exOps St.init) [.binary 1 0 .mul, .deriv 0 0, .item 0 [] (fun _ => [0]), .roots 1 3 (fun _ _ => 1)] := by
  refine ⟨?_, trivial, trivial, trivial, trivial⟩
  rintro x y hx hy ⟨h, _⟩
  have : x = ⟨false, [0, 1], ⟨1, [], id⟩⟩ := by
    have e : some x = some _ := hx.symm.trans (rfl : _ = some (⟨false, [0, 1], ⟨1, [], id⟩⟩ : Obj ℚ))
    exact Option.some.inj e
  rw [this] at h
  simp at h

end Npplus
