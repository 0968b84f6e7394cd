import Verif.Lemmas.Levmar
import Mathlib.Data.List.GetD

/-!
# C43–C46, C48: levmar
-/

set_option linter.unusedSectionVars false
namespace Npplus
open Npplus.Spec

variable {K : Type} [Field K] [LinearOrder K] [IsStrictOrderedRing K]

theorem bcast1_ok {n : ℕ} {l r : List K} (h : bcast1 n l = .ok r) :
    r.length = n ∧ ∀ i < n, r.getD i 0 = elem1 l i := by
  unfold bcast1 at h
  split_ifs at h with h1 h2
  · cases h
    refine ⟨h1, fun i hi => ?_⟩
    unfold elem1
    split_ifs with h3
    · have : i = 0 := by omega
      rw [this]
    · rfl
  · cases h
    refine ⟨by simp, fun i hi => ?_⟩
    unfold elem1
    rw [if_pos h2, List.getD_eq_getElem _ _ (by simpa using hi)]
    simp

theorem optMapM_ok {α β : Type} {f : α → Except PyErr β} {o : Option α} {r : Option β} (h : o.mapM f = .ok r) :
    (o = none ∧ r = none) ∨ ∃ a b, o = some a ∧ f a = .ok b ∧ r = some b := by
  cases o with
  | none => left; cases h; exact ⟨rfl, rfl⟩
  | some a =>
    right
    simp only [Option.mapM, Functor.map, Except.map] at h
    cases hf : f a with
    | error e => rw [hf] at h; cases h
    | ok b => rw [hf] at h; cases h; exact ⟨a, b, rfl, hf, rfl⟩

theorem freeMask_ok {np : ℕ} : ∀ {l : List ℤ} {m : List Bool}, freeMask np l = .ok m →
    m.length = np ∧ ∀ i < np, (m.getD i true = false ↔ ∃ k ∈ l, k = (i : ℤ) ∨ k + np = (i : ℤ))
  | [], m, h => by
    cases h
    refine ⟨by simp, fun i hi => ?_⟩
    rw [List.getD_eq_getElem _ _ (by simpa using hi)]
    simp
  | a :: l, m, h => by
    unfold freeMask normAxis at h
    simp only [bind, Except.bind, pure, Except.pure] at h
    split_ifs at h with h1 h2
    · cases hm : freeMask np l with
      | error e => rw [hm] at h; cases h
      | ok m' =>
        rw [hm] at h; cases h
        obtain ⟨hl, hi⟩ := freeMask_ok hm
        refine ⟨by simp [hl], fun i hlt => ?_⟩
        by_cases hia : (a + np).toNat = i
        · subst hia
          rw [List.getD_eq_getElem _ _ (by simpa [hl] using hlt)]
          simp only [List.getElem_set_self, List.mem_cons, exists_eq_or_imp, true_iff]
          left; right; omega
        · have : (m'.set (a + np).toNat false).getD i true = m'.getD i true := by
            rw [List.getD_eq_getElem _ _ (by simpa [hl] using hlt), List.getElem_set_ne hia,
              List.getD_eq_getElem _ _ (by simpa [hl] using hlt)]
          rw [this, hi i hlt]
          simp only [List.mem_cons, exists_eq_or_imp]
          constructor
          · exact fun h => Or.inr h
          · rintro (h | h)
            · omega
            · exact h
    · cases hm : freeMask np l with
      | error e => rw [hm] at h; cases h
      | ok m' =>
        rw [hm] at h; cases h
        obtain ⟨hl, hi⟩ := freeMask_ok hm
        refine ⟨by simp [hl], fun i hlt => ?_⟩
        by_cases hia : a.toNat = i
        · subst hia
          rw [List.getD_eq_getElem _ _ (by simpa [hl] using hlt)]
          simp only [List.getElem_set_self, List.mem_cons, exists_eq_or_imp, true_iff]
          left; left; omega
        · have : (m'.set a.toNat false).getD i true = m'.getD i true := by
            rw [List.getD_eq_getElem _ _ (by simpa [hl] using hlt), List.getElem_set_ne hia,
              List.getD_eq_getElem _ _ (by simpa [hl] using hlt)]
          rw [this, hi i hlt]
          simp only [List.mem_cons, exists_eq_or_imp]
          constructor
          · exact fun h => Or.inr h
          · rintro (h | h)
            · omega
            · exact h

/-- The settings of the iteration in terms of the arguments. -/
structure EnvOf (A : LmArgs K) (F : UserF K) (solve : List (List K) → List K → Except PyErr (List K)) (E : LmEnv K) : Prop where
  data : E.data = A.data
  wgt : E.wgt.length = A.data.length ∧ ∀ i < A.data.length, E.wgt.getD i 0 = 1 / elem1 A.errs i ^ 2
  p0 : E.p0 = A.p0
  mask_len : E.pmask.length = A.p0.length
  mask : ∀ i < A.p0.length, (E.pmask.getD i true = false ↔ Fixed A i)
  pmin : (A.pmin = none ∧ E.pmin = none) ∨ ∃ a b, A.pmin = some a ∧ bcast1 A.p0.length a = .ok b ∧ E.pmin = some (maskGet E.pmask b)
  pmax : (A.pmax = none ∧ E.pmax = none) ∨ ∃ a b, A.pmax = some a ∧ bcast1 A.p0.length a = .ok b ∧ E.pmax = some (maskGet E.pmask b)
  prel : bcast1 A.p0.length (A.prel.getD [A.cfg.prel]) = .ok E.prel
  pabs : bcast1 A.p0.length (A.pabs.getD [A.cfg.pabs]) = .ok E.pabs
  cfg : E.cfg = A.cfg
  F : E.F = F
  solve : E.solve = solve

theorem env_ok {A : LmArgs K} {F : UserF K} {solve : List (List K) → List K → Except PyErr (List K)} {E : LmEnv K}
    (h : A.env F solve = .ok E) : EnvOf A F solve E := by
  unfold LmArgs.env at h
  simp only [bind, Except.bind, pure, Except.pure] at h
  split at h
  · cases h
  rename_i errs herrs
  split at h
  · cases h
  rename_i pmin hpmin
  split at h
  · cases h
  rename_i pmax hpmax
  split at h
  · cases h
  rename_i prel hprel
  split at h
  · cases h
  rename_i pabs hpabs
  split at h
  · cases h
  rename_i pmask hmask
  cases h
  obtain ⟨hm1, hm2⟩ := freeMask_ok hmask
  obtain ⟨he1, he2⟩ := bcast1_ok herrs
  refine ⟨rfl, ⟨by simpa using he1, fun i hi => ?_⟩, rfl, hm1, fun i hi => ?_, ?_, ?_, hprel, hpabs, rfl, rfl, rfl⟩
  · have := he2 i hi
    rw [← this, List.getD_eq_getElem _ _ (by simpa [he1] using hi), List.getD_eq_getElem _ _ (by simpa [he1] using hi)]
    simp [sq]
  · rw [hm2 i hi]
    unfold Fixed
    cases hp : A.pfix with
    | none => simp
    | some l => simp
  · rcases optMapM_ok hpmin with ⟨h1, h2⟩ | ⟨a, b, h1, h2, h3⟩
    · left; exact ⟨h1, by rw [h2]; rfl⟩
    · right; exact ⟨a, b, h1, h2, by rw [h3]; rfl⟩
  · rcases optMapM_ok hpmax with ⟨h1, h2⟩ | ⟨a, b, h1, h2, h3⟩
    · left; exact ⟨h1, by rw [h2]; rfl⟩
    · right; exact ⟨a, b, h1, h2, by rw [h3]; rfl⟩

section
variable {A : LmArgs K} {F : UserF K} {solve : List (List K) → List K → Except PyErr (List K)} {E : LmEnv K}

theorem EnvOf.ok (h : EnvOf A F solve E) (hs : SolveLen solve) : EnvOK E where
  mask := by rw [h.mask_len, h.p0]
  prel := by rw [(bcast1_ok h.prel).1, h.p0]
  pabs := by rw [(bcast1_ok h.pabs).1, h.p0]
  pmin := by
    rcases h.pmin with ⟨h1, h2⟩ | ⟨a, b, h1, h2, h3⟩
    · intro b hb; rw [h2] at hb; cases hb
    · intro c hc; rw [h3] at hc; cases hc
      rw [maskGet_length]
      rw [h.mask_len, (bcast1_ok h2).1]
  pmax := by
    rcases h.pmax with ⟨h1, h2⟩ | ⟨a, b, h1, h2, h3⟩
    · intro b hb; rw [h2] at hb; cases hb
    · intro c hc; rw [h3] at hc; cases hc
      rw [maskGet_length]
      rw [h.mask_len, (bcast1_ok h2).1]
  solve := by rw [h.solve]; exact hs

theorem levmar_tri {I J : List K → Prop} {inv : List (List K) → Except PyErr (List (List K))} {fo fi : ℕ}
    (hs : SolveLen solve) (hinv : ∀ E, A.env F solve = .ok E → LmInv E I J)
    (hini : ∀ E, A.env F solve = .ok E → J (maskGet E.pmask E.p0)) :
    (∀ q ∈ (levmar A F solve inv fo fi).2, I q) ∧ ∀ r, (levmar A F solve inv fo fi).1 = .ok r → I r.p := by
  unfold levmar
  cases hE : A.env F solve with
  | error e => exact ⟨by simp, fun r hr => by cases hr⟩
  | ok E =>
    have h1 := outer_tri ((env_ok hE).ok hs) (hinv E hE) fi fo E.init (hini E hE)
    have h2 : Tri I (E.outer fi fo E.init >>= fun st => Run.lift (E.finish inv st)) (fun r => I r.p) := by
      refine Tri.bind h1 fun st hst => Tri.lift fun r hr => ?_
      unfold LmEnv.finish at hr
      simp only [bind, Except.bind, pure, Except.pure] at hr
      split at hr
      · cases hr
      · cases hr; exact (hinv E hE).full _ hst
    exact h2 [] (by simp)

theorem keepsFixed_set (h : EnvOf A F solve E) (v y : List K) (hy : KeepsFixed A y) :
    KeepsFixed A (maskSet E.pmask v y) := by
  refine ⟨by rw [maskSet_length]; exact hy.1, fun i hi hf => ?_⟩
  rw [maskSet_false _ _ _ _ _ ((h.mask i hi).2 hf)]
  exact hy.2 i hi hf

theorem keepsFixed_full (h : EnvOf A F solve E) (p : List K) : KeepsFixed A (E.full p) := by
  unfold LmEnv.full
  rw [h.p0]
  exact keepsFixed_set h p A.p0 ⟨rfl, fun i _ _ => rfl⟩

/-- C44.  In every run (any user function, any solver, any amount of fuel, whether or not it ends in an exception),
every call of `f` and the returned parameters keep the `pfix` parameters at their values in `p0`. -/
theorem C44_fixed (hs : SolveLen solve) (inv : List (List K) → Except PyErr (List (List K))) (fo fi : ℕ) :
    (∀ q ∈ (levmar A F solve inv fo fi).2, KeepsFixed A q) ∧
      ∀ r, (levmar A F solve inv fo fi).1 = .ok r → KeepsFixed A r.p := by
  refine levmar_tri (J := fun p => ∀ E, A.env F solve = .ok E → p.length = E.pmask.countP id) hs (fun E hE => ?_) fun E hE => ?_
  · have h := env_ok hE
    have hok := h.ok hs
    refine ⟨fun s hl E' hE' => ?_, fun p hp => hp E hE, fun p _ => keepsFixed_full h p, fun _ p _ dp _ k _ => ?_⟩
    · rw [hE] at hE'; cases hE'; exact hok.clip_length hl
    · exact keepsFixed_set h _ _ (keepsFixed_full h p)
  · intro E' hE'
    rw [hE] at hE'; cases hE'
    have h := env_ok hE
    exact maskGet_length _ _ (by rw [h.mask_len, h.p0])

/-! ### bounds -/

theorem getD_zipWith2 {α β γ : Type} (f : α → β → γ) (a : List α) (b : List β) (i : ℕ) (d : α) (e : β) (g : γ)
    (h1 : i < a.length) (h2 : i < b.length) : (List.zipWith f a b).getD i g = f (a.getD i d) (b.getD i e) := by
  rw [List.getD_eq_getElem _ _ (by simp [h1, h2]), List.getD_eq_getElem _ _ h1, List.getD_eq_getElem _ _ h2]
  simp

theorem getD_set_self2 {α : Type} (l : List α) (i : ℕ) (a d : α) (h : i < l.length) : (l.set i a).getD i d = a := by
  rw [List.getD_eq_getElem _ _ (by simpa using h)]; simp

theorem getD_set_ne2 {α : Type} (l : List α) {i j : ℕ} (a d : α) (h : i ≠ j) : (l.set i a).getD j d = l.getD j d := by
  simp only [List.getD_eq_getElem?_getD, List.getElem?_set_ne h]

theorem any_id_false {l : List Bool} (h : l.any id = false) (i : ℕ) (hi : i < l.length) : l.getD i false = false := by
  rw [List.any_eq_false] at h
  rw [List.getD_eq_getElem _ _ hi]
  have := h _ (List.getElem_mem hi)
  simpa using this

theorem maskGet_subset {α : Type} (m : List Bool) (x : List α) : ∀ a ∈ maskGet m x, a ∈ x := by
  intro a ha
  unfold maskGet at ha
  simp only [List.mem_map, List.mem_filter] at ha
  obtain ⟨⟨b, c⟩, ⟨h1, -⟩, rfl⟩ := ha
  exact (List.of_mem_zip h1).2

/-- The points `p + dp` of `numerical_partials` respect the bounds. -/
theorem partialSteps_bounds {pfull : List K} {pmin pmax : Option (List K)} {prel pabs : List K} {pmask : List Bool}
    {dp : List K} (h : partialSteps pfull pmin pmax prel pabs pmask = .ok dp) (h1 : prel.length = pfull.length)
    (h2 : pabs.length = pfull.length) (h3 : pmask.length = pfull.length)
    (hlo : ∀ b, pmin = some b → b.length = pmask.countP id ∧ ∀ i < pmask.countP id, b.getD i 0 ≤ (maskGet pmask pfull).getD i 0)
    (hhi : ∀ b, pmax = some b → b.length = pmask.countP id ∧ ∀ i < pmask.countP id, (maskGet pmask pfull).getD i 0 ≤ b.getD i 0)
    (hnn : ∀ d ∈ List.zipWith max (List.zipWith (fun r x => r * |x|) prel pfull) pabs, (0 : K) ≤ d) :
    ∀ i < pmask.countP id, (∀ b, pmin = some b → b.getD i 0 ≤ (maskGet pmask pfull).getD i 0 + dp.getD i 0) ∧
      ∀ b, pmax = some b → (maskGet pmask pfull).getD i 0 + dp.getD i 0 ≤ b.getD i 0 := by
  set dq := maskGet pmask (List.zipWith max (List.zipWith (fun r x => r * |x|) prel pfull) pabs) with hdq
  have hz : dq.length = pmask.countP id := by
    rw [hdq, maskGet_length]
    simp [h1, h2, h3]
  have hp : (maskGet pmask pfull).length = pmask.countP id := maskGet_length _ _ h3
  have hq0 : ∀ i < pmask.countP id, 0 ≤ dq.getD i 0 := by
    intro i hi
    rw [List.getD_eq_getElem _ _ (by rw [hz]; exact hi)]
    exact hnn _ (maskGet_subset _ _ _ (List.getElem_mem _))
  set p := maskGet pmask pfull with hpd
  intro i hi
  unfold partialSteps at h
  cases hx : pmax with
  | none =>
    rw [hx] at h
    cases h
    refine ⟨fun b hb => ?_, fun b hb => by cases hb⟩
    have := (hlo b hb).2 i hi
    have := hq0 i hi
    rw [← hdq]
    linarith
  | some b =>
    obtain ⟨hbl, hb⟩ := hhi b hx
    rw [hx] at h
    simp only [← hdq, ← hpd] at h
    set mask := List.zipWith (fun s m => decide (m < s)) (List.zipWith (· + ·) p dq) b with hmask
    have hml : mask.length = pmask.countP id := by simp [hmask, hp, hz, hbl]
    have hmi : mask.getD i false = decide (b.getD i 0 < p.getD i 0 + dq.getD i 0) := by
      rw [hmask, getD_zipWith2 _ _ _ i 0 0 _ (by simp [hp, hz, hi]) (by rw [hbl]; exact hi),
        getD_zipWith2 _ _ _ i 0 0 _ (by rw [hp]; exact hi) (by rw [hz]; exact hi)]
    set dr := List.zipWith (fun (b : Bool) d => if b then d * -1 else d) mask dq with hdr
    have hri : dr.getD i 0 = if mask.getD i false then dq.getD i 0 * -1 else dq.getD i 0 := by
      rw [hdr, getD_zipWith2 _ _ _ i false 0 _ (by rw [hml]; exact hi) (by rw [hz]; exact hi)]
    have hup : p.getD i 0 + dr.getD i 0 ≤ b.getD i 0 := by
      rw [hri, hmi]
      have := hb i hi
      have := hq0 i hi
      split_ifs with hc
      · linarith
      · simpa using hc
    have key : dp = dr ∧ ∀ a, pmin = some a → a.getD i 0 ≤ p.getD i 0 + dr.getD i 0 := by
      split_ifs at h with ha
      · cases hm : pmin with
        | none => rw [hm] at h; exact ⟨(Except.ok.inj h).symm, fun a ha => by cases ha⟩
        | some a =>
          rw [hm] at h
          simp only at h
          split_ifs at h with hb
          refine ⟨(Except.ok.inj h).symm, fun a' ha' => ?_⟩
          cases ha'
          have hal := (hlo a hm).1
          have := any_id_false (Bool.eq_false_iff.2 hb) i (by simp [hp, hml, hz, hal, hdr, hi])
          rw [getD_zipWith2 _ _ _ i 0 0 _ (by simp [hp, hml, hz, hdr, hi]) (by rw [hal]; exact hi),
            getD_zipWith2 _ _ _ i 0 0 _ (by rw [hp]; exact hi) (by simp [hml, hz, hdr, hi])] at this
          simpa using this
      · refine ⟨(Except.ok.inj h).symm, fun a ha' => ?_⟩
        have := any_id_false (Bool.eq_false_iff.2 ha) i (by rw [hml]; exact hi)
        rw [hri, this, if_neg (by simp)]
        have := (hlo a ha').2 i hi
        have := hq0 i hi
        linarith
    refine ⟨fun a ha => ?_, fun b' hb' => ?_⟩
    · rw [key.1]; exact key.2 a ha
    · cases hb'; rw [key.1]; exact hup

/-- the bounds of the free parameters -/
def FreeIn (E : LmEnv K) (p : List K) : Prop :=
  p.length = E.pmask.countP id ∧ ∀ i < E.pmask.countP id, (∀ b, E.pmin = some b → b.getD i 0 ≤ p.getD i 0) ∧
    ∀ b, E.pmax = some b → p.getD i 0 ≤ b.getD i 0

theorem freeIn_full (h : EnvOf A F solve E) {y p : List K} (hy : InBounds A y) (hp : FreeIn E p) :
    InBounds A (maskSet E.pmask p y) := by
  refine ⟨by rw [maskSet_length]; exact hy.1, fun i hi => ⟨fun l hl => ?_, fun l hl => ?_⟩⟩
  · rcases h.pmin with ⟨h1, h2⟩ | ⟨a, b, h1, h2, h3⟩
    · rw [h1] at hl; cases hl
    · rw [h1] at hl; cases hl
      obtain ⟨hb1, hb2⟩ := bcast1_ok h2
      have := maskSet_rel (R := fun x b => b ≤ x) E.pmask p y b
        ((forall2_getD 0 0).2 ⟨by rw [hy.1, hb1], fun j hj => ?_⟩)
        ((forall2_getD 0 0).2 ⟨?_, fun j hj => ?_⟩)
      · have := ((forall2_getD 0 0).1 this).2 i (by rw [maskSet_length, hy.1]; exact hi)
        rw [hb2 i hi] at this; exact this
      · have := (hy.2 j (by rw [hy.1] at hj; exact hj)).1 _ h1
        rw [hb2 j (by rw [hy.1] at hj; exact hj)]; exact this
      · rw [hp.1, maskGet_length]; rw [h.mask_len, hb1]
      · exact (hp.2 j (by rw [hp.1] at hj; exact hj)).1 _ h3
  · rcases h.pmax with ⟨h1, h2⟩ | ⟨a, b, h1, h2, h3⟩
    · rw [h1] at hl; cases hl
    · rw [h1] at hl; cases hl
      obtain ⟨hb1, hb2⟩ := bcast1_ok h2
      have := maskSet_rel (R := fun x b => x ≤ b) E.pmask p y b
        ((forall2_getD 0 0).2 ⟨by rw [hy.1, hb1], fun j hj => ?_⟩)
        ((forall2_getD 0 0).2 ⟨?_, fun j hj => ?_⟩)
      · have := ((forall2_getD 0 0).1 this).2 i (by rw [maskSet_length, hy.1]; exact hi)
        rw [hb2 i hi] at this; exact this
      · have := (hy.2 j (by rw [hy.1] at hj; exact hj)).2 _ h1
        rw [hb2 j (by rw [hy.1] at hj; exact hj)]; exact this
      · rw [hp.1, maskGet_length]; rw [h.mask_len, hb1]
      · exact (hp.2 j (by rw [hp.1] at hj; exact hj)).2 _ h3

/-- the free part of a vector within the bounds -/
theorem freeIn_get (h : EnvOf A F solve E) {y : List K} (hy : InBounds A y) : FreeIn E (maskGet E.pmask y) := by
  have hl : (maskGet E.pmask y).length = E.pmask.countP id := maskGet_length _ _ (by rw [h.mask_len, hy.1])
  refine ⟨hl, fun i hi => ⟨fun c hc => ?_, fun c hc => ?_⟩⟩
  · rcases h.pmin with ⟨h1, h2⟩ | ⟨a, b, h1, h2, h3⟩
    · rw [h2] at hc; cases hc
    · rw [h3] at hc; cases hc
      obtain ⟨hb1, hb2⟩ := bcast1_ok h2
      have := maskGet_rel (R := fun x b => b ≤ x) E.pmask y b ((forall2_getD 0 0).2 ⟨by rw [hy.1, hb1], fun j hj => ?_⟩)
      · exact ((forall2_getD 0 0).1 this).2 i (by rw [hl]; exact hi)
      · rw [hb2 j (by rw [hy.1] at hj; exact hj)]
        exact (hy.2 j (by rw [hy.1] at hj; exact hj)).1 a h1
  · rcases h.pmax with ⟨h1, h2⟩ | ⟨a, b, h1, h2, h3⟩
    · rw [h2] at hc; cases hc
    · rw [h3] at hc; cases hc
      obtain ⟨hb1, hb2⟩ := bcast1_ok h2
      have := maskGet_rel (R := fun x b => x ≤ b) E.pmask y b ((forall2_getD 0 0).2 ⟨by rw [hy.1, hb1], fun j hj => ?_⟩)
      · exact ((forall2_getD 0 0).1 this).2 i (by rw [hl]; exact hi)
      · rw [hb2 j (by rw [hy.1] at hj; exact hj)]
        exact (hy.2 j (by rw [hy.1] at hj; exact hj)).2 a h1

theorem clip_in (hok : EnvOK E) {q s : List K} (hq : FreeIn E q) (hs : s.length = E.pmask.countP id) :
    FreeIn E (E.clip s) := by
  refine ⟨hok.clip_length hs, fun i hi => ?_⟩
  have hq := hq.2 i hi
  unfold LmEnv.clip
  cases h1 : E.pmin with
  | none =>
    cases h2 : E.pmax with
    | none => exact ⟨fun b hb => (by cases hb), fun b hb => (by cases hb)⟩
    | some c =>
      refine ⟨fun b hb => (by cases hb), fun b hb => ?_⟩
      cases hb
      have hl := hok.pmax c h2
      simp only
      rw [getD_zipWith2 _ _ _ i 0 0 _ (by rw [hs]; exact hi) (by rw [hl]; exact hi)]
      exact min_le_right _ _
  | some a =>
    have hla := hok.pmin a h1
    cases h2 : E.pmax with
    | none =>
      refine ⟨fun b hb => ?_, fun b hb => (by cases hb)⟩
      cases hb
      simp only
      rw [getD_zipWith2 _ _ _ i 0 0 _ (by rw [hs]; exact hi) (by rw [hla]; exact hi)]
      exact le_max_right _ _
    | some c =>
      have hl := hok.pmax c h2
      simp only
      rw [getD_zipWith2 _ _ _ i 0 0 _ (by simp [hs, hla, hi]) (by rw [hl]; exact hi),
        getD_zipWith2 _ _ _ i 0 0 _ (by rw [hs]; exact hi) (by rw [hla]; exact hi)]
      refine ⟨fun b hb => ?_, fun b hb => ?_⟩
      · cases hb
        exact le_min (le_max_right _ _) ((hq.1 a h1).trans (hq.2 c h2))
      · cases hb
        exact min_le_right _ _

/-- C43.  If `p0` is within the bounds and the step sizes are not negative, then in every run (any user function, any
solver, also runs that end in an exception) every call of `f`, including those for finite differences, and the
returned parameters are within `[pmin, pmax]`. -/
theorem C43_bounds (hs : SolveLen solve) (h0 : InBounds A A.p0) (hst : StepsNonneg A)
    (inv : List (List K) → Except PyErr (List (List K))) (fo fi : ℕ) :
    (∀ q ∈ (levmar A F solve inv fo fi).2, InBounds A q) ∧
      ∀ r, (levmar A F solve inv fo fi).1 = .ok r → InBounds A r.p := by
  refine levmar_tri (J := fun p => ∀ E, A.env F solve = .ok E → FreeIn E p) hs (fun E hE => ?_) fun E hE => ?_
  · have h := env_ok hE
    have hok := h.ok hs
    have hq0 : FreeIn E (maskGet E.pmask A.p0) := freeIn_get h h0
    have hfull : ∀ p, FreeIn E p → InBounds A (E.full p) := fun p hp => by
      unfold LmEnv.full; rw [h.p0]; exact freeIn_full h h0 hp
    refine ⟨fun s hl E' hE' => ?_, fun p hp => (hp E hE).1, fun p hp => hfull p (hp E hE), fun hg p hp dp hdp k hk => ?_⟩
    · rw [hE] at hE'; cases hE'; exact clip_in hok hq0 hl
    · have hpE := hp E hE
      refine freeIn_full h (hfull p hpE) ?_
      have hget := hok.get_full hpE.1
      have hlen := partialSteps_length hdp (by rw [hok.prel, E.full_length]) (by rw [hok.pabs, E.full_length])
        (by rw [hok.mask, E.full_length]) hok.pmax
      have hb := partialSteps_bounds hdp (by rw [hok.prel, E.full_length]) (by rw [hok.pabs, E.full_length])
        (by rw [hok.mask, E.full_length]) (fun b hb => ⟨hok.pmin b hb, fun i hi => by rw [hget]; exact (hpE.2 i hi).1 b hb⟩)
        (fun b hb => ⟨hok.pmax b hb, fun i hi => by rw [hget]; exact (hpE.2 i hi).2 b hb⟩) ?_
      · rw [hget] at hb
        refine ⟨by simp [hpE.1], fun i hi => ?_⟩
        by_cases hik : k = i
        · subst hik
          rw [getD_set_self2 _ _ _ _ (by rw [hpE.1]; exact hi)]
          exact hb k hi
        · rw [getD_set_ne2 _ _ _ hik]
          exact hpE.2 i hi
      · intro d hd
        obtain ⟨i, hi, rfl⟩ := List.mem_iff_getElem.1 hd
        have e := List.getD_eq_getElem _ (0 : K) hi
        simp only [List.length_zipWith, hok.prel, hok.pabs, E.full_length, min_self] at hi
        rw [← e, getD_zipWith2 _ _ _ i 0 0 _ (by simp [hok.prel, E.full_length, hi]) (by rw [hok.pabs]; exact hi),
          getD_zipWith2 _ _ _ i 0 0 _ (by rw [hok.prel]; exact hi) (by rw [E.full_length]; exact hi)]
        rw [h.p0] at hi
        rcases hst i hi with h1 | h1
        · rw [(bcast1_ok h.prel).2 i hi]
          exact le_max_of_le_left (mul_nonneg h1 (abs_nonneg _))
        · rw [(bcast1_ok h.pabs).2 i hi]
          exact le_max_of_le_right h1
  · intro E' hE'
    rw [hE] at hE'; cases hE'
    have h := env_ok hE
    rw [h.p0]
    exact freeIn_get h h0

end
end Npplus
