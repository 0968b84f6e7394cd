import Verif.Spec.Lsq
import Mathlib.Tactic

/-!
# Reasoning about runs of levmar
-/

set_option linter.unusedSectionVars false
namespace Npplus

section run
variable {K : Type} {α β : Type}

/-- If all calls so far satisfy `I`, then so do all calls after `m`, and the value of `m` satisfies `Q`. -/
def Tri (I : List K → Prop) (m : Run K α) (Q : α → Prop) : Prop :=
  ∀ log, (∀ q ∈ log, I q) → (∀ q ∈ (m log).2, I q) ∧ ∀ a, (m log).1 = .ok a → Q a

variable {I : List K → Prop}

theorem Tri.ret {Q : α → Prop} {a : α} (h : Q a) : Tri I (Run.ret a) Q := fun log hl =>
  ⟨hl, fun b hb => by cases hb; exact h⟩

theorem Tri.fail {Q : α → Prop} {s : Stop} : Tri I (Run.fail s) Q := fun log hl => ⟨hl, fun b hb => by cases hb⟩

theorem Tri.bind {P : α → Prop} {Q : β → Prop} {m : Run K α} {k : α → Run K β} (hm : Tri I m P)
    (hk : ∀ a, P a → Tri I (k a) Q) : Tri I (m >>= k) Q := by
  intro log hl
  have h := hm log hl
  change (∀ q ∈ (Run.andThen m k log).2, I q) ∧ ∀ a, (Run.andThen m k log).1 = .ok a → Q a
  unfold Run.andThen
  rcases hml : m log with ⟨r, log'⟩
  rw [hml] at h
  cases r with
  | error s => exact ⟨h.1, fun a ha => by cases ha⟩
  | ok a => exact hk a (h.2 a rfl) log' h.1

theorem Tri.lift {Q : α → Prop} {e : Except PyErr α} (h : ∀ a, e = .ok a → Q a) : Tri I (Run.lift e) Q := by
  intro log hl
  unfold Run.lift
  cases e with
  | error s => exact ⟨hl, fun a ha => by cases ha⟩
  | ok a => exact ⟨hl, fun b hb => by cases hb; exact h a rfl⟩

theorem Tri.ite {Q : α → Prop} {c : Prop} [Decidable c] {m m' : Run K α} (h : c → Tri I m Q) (h' : ¬ c → Tri I m' Q) :
    Tri I (if c then m else m') Q := by
  split_ifs with hc
  · exact h hc
  · exact h' hc

theorem Tri.mono {P Q : α → Prop} {m : Run K α} (hm : Tri I m P) (h : ∀ a, P a → Q a) : Tri I m Q :=
  fun log hl => ⟨(hm log hl).1, fun a ha => h a ((hm log hl).2 a ha)⟩

theorem Tri.and {P Q : α → Prop} {m : Run K α} (h1 : Tri I m P) (h2 : Tri I m Q) : Tri I m (fun a => P a ∧ Q a) :=
  fun log hl => ⟨(h1 log hl).1, fun a ha => ⟨(h1 log hl).2 a ha, (h2 log hl).2 a ha⟩⟩

theorem Tri.call {F : UserF K} {p : List K} (h : I p) : Tri I (F.call p) (fun v => ∃ log, F.val log p = .ok v) := by
  intro log hl
  unfold UserF.call
  cases hv : F.val log p with
  | error e =>
    refine ⟨?_, fun a ha => by cases ha⟩
    intro q hq
    rcases List.mem_append.1 hq with h1 | h1
    · exact hl q h1
    · rw [List.mem_singleton.1 h1]; exact h
  | ok v =>
    refine ⟨?_, fun a ha => by cases ha; exact ⟨log, hv⟩⟩
    intro q hq
    rcases List.mem_append.1 hq with h1 | h1
    · exact hl q h1
    · rw [List.mem_singleton.1 h1]; exact h

end run

/-! ### masks -/

section mask
variable {α β : Type}

theorem maskGet_nil_right (m : List Bool) : maskGet m ([] : List α) = [] := by simp [maskGet]

theorem maskGet_cons' (m : Bool) (ms : List Bool) (x : α) (xs : List α) :
    maskGet (m :: ms) (x :: xs) = if m then x :: maskGet ms xs else maskGet ms xs := by
  cases m <;> simp [maskGet]

theorem maskGet_length : ∀ (m : List Bool) (x : List α), m.length = x.length → (maskGet m x).length = m.countP id
  | [], [], _ => rfl
  | b :: m, a :: x, h => by
    rw [maskGet_cons']
    have := maskGet_length m x (by simpa using h)
    cases b <;> simp [this]

theorem maskSet_length : ∀ (m : List Bool) (v y : List α), (maskSet m v y).length = y.length
  | [], v, y => by simp [maskSet]
  | true :: m, [], y => by simp [maskSet]
  | true :: m, a :: v, [] => by simp [maskSet]
  | true :: m, a :: v, b :: y => by simp [maskSet, maskSet_length m v y]
  | false :: m, v, [] => by simp [maskSet]
  | false :: m, v, b :: y => by simp [maskSet, maskSet_length m v y]

theorem maskGet_maskSet : ∀ (m : List Bool) (v y : List α), m.length = y.length → v.length = m.countP id →
    maskGet m (maskSet m v y) = v
  | [], [], [], _, _ => rfl
  | true :: m, [], b :: y, h1, h2 => by simp at h2
  | true :: m, a :: v, b :: y, h1, h2 => by
    rw [maskSet, maskGet_cons', if_pos rfl, maskGet_maskSet m v y (by simpa using h1) (by simpa using h2)]
  | false :: m, v, b :: y, h1, h2 => by
    rw [maskSet, maskGet_cons', if_neg (by simp), maskGet_maskSet m v y (by simpa using h1) (by simpa using h2)]

theorem maskSet_maskGet : ∀ (m : List Bool) (y : List α), m.length = y.length → maskSet m (maskGet m y) y = y
  | [], [], _ => rfl
  | true :: m, b :: y, h1 => by
    rw [maskGet_cons', if_pos rfl, maskSet, maskSet_maskGet m y (by simpa using h1)]
  | false :: m, b :: y, h1 => by
    rw [maskGet_cons', if_neg (by simp), maskSet, maskSet_maskGet m y (by simpa using h1)]

/-- masked positions that are not assigned keep their value -/
theorem maskSet_false : ∀ (m : List Bool) (v y : List α) (i : ℕ) (d : α), m.getD i true = false →
    (maskSet m v y).getD i d = y.getD i d
  | [], v, y, i, d, h => by simp at h
  | true :: m, [], y, i, d, h => by simp [maskSet]
  | true :: m, a :: v, [], i, d, h => by simp [maskSet]
  | true :: m, a :: v, b :: y, 0, d, h => by simp at h
  | true :: m, a :: v, b :: y, i + 1, d, h => by
    rw [maskSet, List.getD_cons_succ, List.getD_cons_succ]
    exact maskSet_false m v y i d (by simpa using h)
  | false :: m, v, [], i, d, h => by simp [maskSet]
  | false :: m, v, b :: y, 0, d, h => by simp [maskSet]
  | false :: m, v, b :: y, i + 1, d, h => by
    rw [maskSet, List.getD_cons_succ, List.getD_cons_succ]
    exact maskSet_false m v y i d (by simpa using h)

/-- a relation with a masked list, and for the other positions, gives it everywhere -/
theorem maskSet_rel {R : α → β → Prop} : ∀ (m : List Bool) (v y : List α) (b : List β), List.Forall₂ R y b →
    List.Forall₂ R v (maskGet m b) → List.Forall₂ R (maskSet m v y) b
  | [], v, y, b, h1, h2 => by simpa [maskSet] using h1
  | true :: m, [], y, b, h1, h2 => by simpa [maskSet] using h1
  | true :: m, a :: v, [], b, h1, h2 => by simpa [maskSet] using h1
  | true :: m, a :: v, c :: y, [], h1, h2 => by cases h1
  | true :: m, a :: v, c :: y, e :: b, h1, h2 => by
    rw [maskGet_cons', if_pos rfl] at h2
    cases h1 with
    | cons h3 h4 =>
      cases h2 with
      | cons h5 h6 => exact List.Forall₂.cons h5 (maskSet_rel m v y b h4 h6)
  | false :: m, v, [], b, h1, h2 => by simpa [maskSet] using h1
  | false :: m, v, c :: y, [], h1, h2 => by cases h1
  | false :: m, v, c :: y, e :: b, h1, h2 => by
    rw [maskGet_cons', if_neg (by simp)] at h2
    cases h1 with
    | cons h3 h4 => exact List.Forall₂.cons h3 (maskSet_rel m v y b h4 h2)

theorem maskGet_rel {R : α → β → Prop} : ∀ (m : List Bool) (y : List α) (b : List β), List.Forall₂ R y b →
    List.Forall₂ R (maskGet m y) (maskGet m b)
  | [], y, b, h => by simp [maskGet]
  | x :: m, [], [], h => by simp [maskGet]
  | x :: m, c :: y, e :: b, h => by
    cases h with
    | cons h3 h4 =>
      rw [maskGet_cons', maskGet_cons']
      have := maskGet_rel m y b h4
      cases x
      · simpa using this
      · simpa using ⟨h3, this⟩

end mask

theorem forall2_getD {α β : Type} {R : α → β → Prop} {x : List α} {y : List β} (d : α) (e : β) :
    List.Forall₂ R x y ↔ x.length = y.length ∧ ∀ i < x.length, R (x.getD i d) (y.getD i e) := by
  rw [List.forall₂_iff_get]
  constructor
  · rintro ⟨h1, h2⟩
    refine ⟨h1, fun i hi => ?_⟩
    have := h2 i hi (h1 ▸ hi)
    rw [List.getD_eq_getElem _ _ hi, List.getD_eq_getElem _ _ (h1 ▸ hi)]
    exact this
  · rintro ⟨h1, h2⟩
    refine ⟨h1, fun i hi hi' => ?_⟩
    have := h2 i hi
    rw [List.getD_eq_getElem _ _ hi, List.getD_eq_getElem _ _ hi'] at this
    exact this

section lm
variable {K : Type} [Field K] [LinearOrder K] [IsStrictOrderedRing K]

theorem bzip_length {op : K → K → K} {a b c : List K} (h : bzip op a b = .ok c) (hl : a.length = b.length) :
    c = List.zipWith op a b := by
  unfold bzip at h
  rw [if_pos hl] at h
  cases h; rfl

/-- The steps of `numerical_partials`: one per free parameter, and with bounds both `p` and `p + dp` respect them. -/
theorem partialSteps_length {pfull : List K} {pmin pmax : Option (List K)} {prel pabs : List K} {pmask : List Bool}
    {dp : List K} (h : partialSteps pfull pmin pmax prel pabs pmask = .ok dp) (h1 : prel.length = pfull.length)
    (h2 : pabs.length = pfull.length) (h3 : pmask.length = pfull.length)
    (h4 : ∀ b, pmax = some b → b.length = pmask.countP id) : dp.length = pmask.countP id := by
  have hz : (maskGet pmask (List.zipWith max (List.zipWith (fun r x => r * |x|) prel pfull) pabs)).length =
      pmask.countP id := by
    rw [maskGet_length]
    simp [h1, h2, h3]
  have hp : (maskGet pmask pfull).length = pmask.countP id := maskGet_length _ _ h3
  unfold partialSteps at h
  cases pmax with
  | none => cases h; exact hz
  | some b =>
    have hb := h4 b rfl
    simp only at h
    split_ifs at h
    · cases pmin with
      | none => cases h; simp [hz, hp, hb]
      | some a =>
        simp only at h
        split_ifs at h
        cases h; simp [hz, hp, hb]
    · cases h; simp [hz, hp, hb]

/-- The loop calls `f` only at points that differ from `p` in one free parameter, by one of the steps. -/
theorem partialsLoop_tri {I : List K → Prop} (F : UserF K) (pfull f0 : List K) (pmask : List Bool) (p : List K) :
    ∀ (ds : List K) (i : ℕ), (∀ k < ds.length, I (maskSet pmask (p.set (i + k) (p.getD (i + k) 0 + ds.getD k 0)) pfull)) →
      Tri I (partialsLoop F pfull f0 pmask p ds i) (fun rows => rows.length = ds.length)
  | [], i, _ => Tri.ret rfl
  | d :: ds, i, h => by
    unfold partialsLoop
    split_ifs
    · exact Tri.fail
    · refine Tri.bind (Tri.call (h 0 (by simp))) fun v hv => ?_
      refine Tri.bind (P := fun _ => True) (Tri.lift fun _ _ => trivial) fun dv _ => ?_
      refine Tri.bind (partialsLoop_tri F pfull f0 pmask p ds (i + 1) fun k hk => ?_) fun rest hr => ?_
      · have := h (k + 1) (by simpa using hk)
        rw [show i + 1 + k = i + (k + 1) by ring]
        simpa using this
      · exact Tri.ret (by simp [hr])

theorem Tri.callGen {I : List K → Prop} {F : UserF K} {p : List K} (h : I p) :
    Tri I (F.callGen p) (fun v => ∃ log, F.val log p = .ok v.1 ∧ F.dval log p = .ok v.2) := by
  intro log hl
  have hl' : ∀ q ∈ log ++ [p], I q := by
    intro q hq
    rcases List.mem_append.1 hq with h1 | h1
    · exact hl q h1
    · rw [List.mem_singleton.1 h1]; exact h
  unfold UserF.callGen
  cases hv : F.val log p with
  | error e => exact ⟨hl', fun a ha => by cases ha⟩
  | ok v =>
    cases hd : F.dval log p with
    | error e => exact ⟨hl', fun a ha => by cases ha⟩
    | ok d => exact ⟨hl', fun a ha => by cases ha; exact ⟨log, hv, hd⟩⟩

theorem mapM_ok {α β : Type} {f : α → Except PyErr β} : ∀ {l : List α} {r : List β}, l.mapM f = .ok r →
    List.Forall₂ (fun a b => f a = .ok b) l r
  | [], r, h => by
    simp only [List.mapM_nil] at h
    cases h; exact List.Forall₂.nil
  | a :: l, r, h => by
    simp only [List.mapM_cons, bind, Except.bind] at h
    split at h
    · cases h
    rename_i b hb
    split at h
    · cases h
    rename_i r' hr
    cases h
    exact List.Forall₂.cons hb (mapM_ok hr)

theorem normalEqs_ok {isgen : Bool} {wgt beta : List K} {rows : List (List K)} {r : List K × List (List K)}
    (h : normalEqs isgen wgt beta rows = .ok r) :
    List.Forall₂ (fun row b => dot1 row beta = .ok b) rows r.1 ∧ ∃ wr, List.Forall₂ (fun row w => bzip (· * ·) wgt row = .ok w) rows wr ∧
      List.Forall₂ (fun w al => List.Forall₂ (fun row a => dot1 w row = .ok a) rows al) wr r.2 := by
  unfold normalEqs at h
  simp only [bind, Except.bind, throw, throwThe, MonadExceptOf.throw, pure, Except.pure] at h
  split at h
  · cases h
  split at h
  · cases h
  rename_i bt hbt
  split at h
  · cases h
  rename_i wr hwr
  split at h
  · cases h
  rename_i al hal
  cases h
  refine ⟨mapM_ok hbt, wr, mapM_ok hwr, (mapM_ok hal).imp fun w al h => mapM_ok h⟩

/-- What the iteration needs to know about lengths. -/
structure EnvOK (E : LmEnv K) : Prop where
  mask : E.pmask.length = E.p0.length
  prel : E.prel.length = E.p0.length
  pabs : E.pabs.length = E.p0.length
  pmin : ∀ b, E.pmin = some b → b.length = E.pmask.countP id
  pmax : ∀ b, E.pmax = some b → b.length = E.pmask.countP id
  solve : ∀ A b x, E.solve A b = .ok x → x.length = b.length

theorem LmEnv.full_length (E : LmEnv K) (p : List K) : (E.full p).length = E.p0.length := maskSet_length _ _ _

theorem EnvOK.get_full {E : LmEnv K} (hE : EnvOK E) {p : List K} (hp : p.length = E.pmask.countP id) :
    maskGet E.pmask (E.full p) = p := maskGet_maskSet _ _ _ hE.mask hp

theorem EnvOK.clip_length {E : LmEnv K} (hE : EnvOK E) {p : List K} (hp : p.length = E.pmask.countP id) :
    (E.clip p).length = E.pmask.countP id := by
  unfold LmEnv.clip
  cases h1 : E.pmin with
  | none =>
    cases h2 : E.pmax with
    | none => simpa using hp
    | some b => simp [hp, hE.pmax b h2]
  | some a =>
    cases h2 : E.pmax with
    | none => simp [hp, hE.pmin a h1]
    | some b => simp [hp, hE.pmin a h1, hE.pmax b h2]

/-- An invariant `J` of the free parameters that implies the wanted property `I` of every call. -/
structure LmInv (E : LmEnv K) (I : List K → Prop) (J : List K → Prop) : Prop where
  clip : ∀ s, s.length = E.pmask.countP id → J (E.clip s)
  len : ∀ p, J p → p.length = E.pmask.countP id
  full : ∀ p, J p → I (E.full p)
  num : E.F.isgen = false → ∀ p, J p → ∀ dp, partialSteps (E.full p) E.pmin E.pmax E.prel E.pabs E.pmask = .ok dp →
    ∀ k < dp.length, I (maskSet E.pmask (p.set k (p.getD k 0 + dp.getD k 0)) (E.full p))

variable {E : LmEnv K} {I J : List K → Prop}

theorem chi2At_tri (h : LmInv E I J) {p : List K} (hp : J p) :
    Tri I (E.chi2At p) (fun c => ∃ log v dm w1 w, E.F.val log (E.full p) = .ok v ∧ bzip (· - ·) E.data v = .ok dm ∧
      bzip (· * ·) E.wgt dm = .ok w1 ∧ bzip (· * ·) w1 dm = .ok w ∧ c = w.sum) := by
  unfold LmEnv.chi2At
  refine Tri.bind (Tri.call (h.full p hp)) fun v hv => ?_
  obtain ⟨log, hv⟩ := hv
  refine Tri.bind (P := fun dm => bzip (· - ·) E.data v = .ok dm) (Tri.lift fun _ h => h) fun dm hdm => ?_
  refine Tri.bind (P := fun w => bzip (· * ·) E.wgt dm = .ok w) (Tri.lift fun _ h => h) fun w1 hw1 => ?_
  refine Tri.bind (P := fun w => bzip (· * ·) w1 dm = .ok w) (Tri.lift fun _ h => h) fun w hw => ?_
  exact Tri.ret ⟨log, v, dm, w1, w, hv, hdm, hw1, hw, rfl⟩

theorem inner_tri (hE : EnvOK E) (h : LmInv E I J) {alpha : List (List K)} {beta p1 : List K} {chi2p : K}
    (hp1 : p1.length = E.pmask.countP id) (hb : beta.length = E.pmask.countP id) :
    ∀ fuel lam, Tri I (E.inner alpha beta p1 chi2p fuel lam) (fun r => J r.1)
  | 0, lam => Tri.fail
  | fuel + 1, lam => by
    unfold LmEnv.inner
    refine Tri.bind (P := fun x => x.length = E.pmask.countP id)
      (Tri.lift fun x hx => by rw [hE.solve _ _ _ hx, hb]) fun x hx => ?_
    refine Tri.bind (P := fun s => s.length = E.pmask.countP id)
      (Tri.lift fun s hs => by rw [bzip_length hs (by rw [hp1, hx])]; simp [hp1, hx]) fun s hs => ?_
    refine Tri.bind (chi2At_tri h (h.clip s hs)) fun c hc => ?_
    refine Tri.ite (fun _ => Tri.ret (h.clip s hs)) fun _ => Tri.ite (fun _ => Tri.fail) fun _ => ?_
    exact Tri.bind (inner_tri hE h hp1 hb fuel _) fun r hr => Tri.ret hr

theorem g_tri (hE : EnvOK E) (h : LmInv E I J) {p : List K} (hp : J p) :
    Tri I (E.g p) (fun gv => gv.2.length = E.pmask.countP id ∧ ∃ log, E.F.val log (E.full p) = .ok gv.1) := by
  unfold LmEnv.g
  split_ifs with hg
  · refine Tri.bind (Tri.callGen (h.full p hp)) fun r hr => ?_
    obtain ⟨log, h1, h2⟩ := hr
    split_ifs with hl
    · exact Tri.fail
    · push Not at hl
      exact Tri.ret ⟨maskGet_length _ _ hl.symm, log, h1⟩
  · refine Tri.bind (Tri.call (h.full p hp)) fun f0 hf0 => ?_
    refine Tri.bind (P := fun rows => rows.length = E.pmask.countP id) ?_ fun rows hr => Tri.ret ⟨hr, hf0⟩
    unfold numericalPartials
    refine Tri.bind (P := fun dp => partialSteps (E.full p) E.pmin E.pmax E.prel E.pabs E.pmask = .ok dp)
      (Tri.lift fun _ h => h) fun dp hdp => ?_
    have hl := partialSteps_length hdp (by rw [hE.prel, E.full_length]) (by rw [hE.pabs, E.full_length])
      (by rw [hE.mask, E.full_length]) hE.pmax
    rw [hE.get_full (h.len p hp)]
    refine Tri.mono (partialsLoop_tri _ _ _ _ _ dp 0 fun k hk => ?_) fun rows hr => by rw [hr, hl]
    rw [Nat.zero_add]
    exact h.num (by simpa using hg) p hp dp hdp k hk

/-- Every call of `f` made by the main loop satisfies `I`. -/
theorem outer_tri (hE : EnvOK E) (h : LmInv E I J) (inFuel : ℕ) :
    ∀ fuel st, J st.p → Tri I (E.outer inFuel fuel st) (fun st' => J st'.p)
  | 0, st, _ => Tri.fail
  | fuel + 1, st, hst => by
    unfold LmEnv.outer
    refine Tri.bind (g_tri hE h hst) fun gv hgv => ?_
    refine Tri.bind (P := fun _ => True) (Tri.lift fun _ _ => trivial) fun dm _ => ?_
    refine Tri.bind (P := fun _ => True) (Tri.lift fun _ _ => trivial) fun beta _ => ?_
    refine Tri.bind (P := fun _ => True) (Tri.lift fun _ _ => trivial) fun c _ => ?_
    refine Tri.bind (P := fun ba => ba.1.length = E.pmask.countP id) (Tri.lift fun ba hba => ?_) fun ba hba => ?_
    · rw [← (normalEqs_ok hba).1.length_eq, hgv.1]
    · refine Tri.ite (fun _ => Tri.ret hst) fun _ => ?_
      refine Tri.bind (inner_tri hE h (h.len _ hst) hba _ _) fun r hr => ?_
      refine Tri.ite (fun _ => Tri.ret hr) fun _ => Tri.ite (fun _ => Tri.ret hr) fun _ => ?_
      exact outer_tri hE h inFuel fuel _ hr

end lm

end Npplus
