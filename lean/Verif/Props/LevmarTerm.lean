import Verif.Props.Levmar

/-!
# C46: levmar terminates
-/

set_option linter.unusedSectionVars false
namespace Npplus
open Npplus.Spec

section run
variable {K : Type} {α β : Type}

/-- `m` makes at most `n` calls, does not run out of fuel, and its value satisfies `Q`. -/
def Term (m : Run K α) (n : ℕ) (Q : α → Prop) : Prop :=
  ∀ log, (∃ l, (m log).2 = log ++ l ∧ l.length ≤ n) ∧ (m log).1 ≠ .error .fuel ∧ ∀ a, (m log).1 = .ok a → Q a

theorem Term.ret {Q : α → Prop} {a : α} (h : Q a) : Term (Run.ret a : Run K α) 0 Q := fun log =>
  ⟨⟨[], by simp [Run.ret]⟩, by simp [Run.ret], fun b hb => by cases hb; exact h⟩

theorem Term.fail {Q : α → Prop} {e : PyErr} : Term (Run.fail (.raised e) : Run K α) 0 Q := fun log =>
  ⟨⟨[], by simp [Run.fail]⟩, by simp [Run.fail], fun b hb => by cases hb⟩

theorem Term.lift {Q : α → Prop} {e : Except PyErr α} (h : ∀ a, e = .ok a → Q a) : Term (Run.lift e : Run K α) 0 Q := by
  intro log
  unfold Run.lift
  cases e with
  | error s => exact ⟨⟨[], by simp⟩, by simp, fun a ha => by cases ha⟩
  | ok a => exact ⟨⟨[], by simp⟩, by simp, fun b hb => by cases hb; exact h a rfl⟩

theorem Term.bind {P : α → Prop} {Q : β → Prop} {m : Run K α} {k : α → Run K β} {n1 n2 : ℕ} (hm : Term m n1 P)
    (hk : ∀ a, P a → Term (k a) n2 Q) : Term (m >>= k) (n1 + n2) Q := by
  intro log
  have h := hm log
  change (∃ l, (Run.andThen m k log).2 = log ++ l ∧ l.length ≤ n1 + n2) ∧ (Run.andThen m k log).1 ≠ .error .fuel ∧
    ∀ a, (Run.andThen m k log).1 = .ok a → Q a
  unfold Run.andThen
  rcases hml : m log with ⟨r, log'⟩
  rw [hml] at h
  obtain ⟨⟨l, hl, hn⟩, hf, hv⟩ := h
  simp only at hl
  subst hl
  cases r with
  | error s =>
    refine ⟨⟨l, rfl, by omega⟩, ?_, fun a ha => by cases ha⟩
    intro h
    cases h
    exact hf rfl
  | ok a =>
    obtain ⟨⟨l', hl', hn'⟩, hf', hv'⟩ := hk a (hv a rfl) (log ++ l)
    refine ⟨⟨l ++ l', ?_, ?_⟩, hf', hv'⟩
    · simp only [hl', List.append_assoc]
    · simp; omega

theorem Term.ite {Q : α → Prop} {c : Prop} [Decidable c] {m m' : Run K α} {n : ℕ} (h : c → Term m n Q)
    (h' : ¬ c → Term m' n Q) : Term (if c then m else m') n Q := by
  split_ifs with hc
  · exact h hc
  · exact h' hc

theorem Term.mono {P Q : α → Prop} {m : Run K α} {n n' : ℕ} (hm : Term m n P) (hn : n ≤ n') (h : ∀ a, P a → Q a) :
    Term m n' Q := by
  intro log
  obtain ⟨⟨l, hl, hln⟩, h2, h3⟩ := hm log
  exact ⟨⟨l, hl, by omega⟩, h2, fun a ha => h a (h3 a ha)⟩

theorem Term.bind0 {Q : β → Prop} {e : Except PyErr α} {k : α → Run K β} {n : ℕ}
    (hk : ∀ a, e = .ok a → Term (k a) n Q) : Term (Run.lift e >>= k) n Q := by
  have h := Term.bind (Term.lift (K := K) (e := e) (Q := fun a => e = .ok a) fun _ h => h) hk
  rwa [Nat.zero_add] at h

theorem Term.call {F : UserF K} {p : List K} : Term (F.call p) 1 (fun _ => True) := by
  intro log
  unfold UserF.call
  cases F.val log p with
  | error e => exact ⟨⟨[p], by simp⟩, by simp, fun _ _ => trivial⟩
  | ok v => exact ⟨⟨[p], by simp⟩, by simp, fun _ _ => trivial⟩

theorem Term.callGen {F : UserF K} {p : List K} : Term (F.callGen p) 1 (fun _ => True) := by
  intro log
  unfold UserF.callGen
  cases F.val log p with
  | error e => exact ⟨⟨[p], by simp⟩, by simp, fun _ _ => trivial⟩
  | ok v =>
    cases F.dval log p with
    | error e => exact ⟨⟨[p], by simp⟩, by simp, fun _ _ => trivial⟩
    | ok d => exact ⟨⟨[p], by simp⟩, by simp, fun _ _ => trivial⟩

/-- `m'` agrees with `m` unless `m` runs out of fuel. -/
def Stab (m m' : Run K α) : Prop := ∀ log, (m log).1 ≠ .error .fuel → m' log = m log

theorem Stab.refl (m : Run K α) : Stab m m := fun _ _ => rfl

theorem Stab.bind {m m' : Run K α} {k k' : α → Run K β} (hm : Stab m m') (hk : ∀ a, Stab (k a) (k' a)) :
    Stab (m >>= k) (m' >>= k') := by
  intro log h
  change (Run.andThen m k log).1 ≠ _ at h
  change Run.andThen m' k' log = Run.andThen m k log
  unfold Run.andThen at h ⊢
  have h1 := hm log
  rcases hml : m log with ⟨r, log'⟩
  rw [hml] at h h1
  cases r with
  | error s =>
    have : m' log = (.error s, log') := h1 (by intro e; cases e; exact h rfl)
    rw [this]
  | ok a =>
    have : m' log = (.ok a, log') := h1 (by simp)
    rw [this]
    exact hk a log' h

theorem Stab.ite {c : Prop} [Decidable c] {m m' n n' : Run K α} (h : Stab m n) (h' : Stab m' n') :
    Stab (if c then m else m') (if c then n else n') := by
  split_ifs
  · exact h
  · exact h'

theorem Stab.fuel (m : Run K α) : Stab (Run.fail .fuel) m := fun log h => absurd rfl h

theorem Stab.trans {m n o : Run K α} (h1 : Stab m n) (h2 : Stab n o) : Stab m o := by
  intro log h
  have := h1 log h
  rw [← this]
  exact h2 log (by rw [this]; exact h)

end run

section lm
variable {K : Type} [Field K] [LinearOrder K] [IsStrictOrderedRing K] {E : LmEnv K}

theorem inner_stab {alpha : List (List K)} {beta p1 : List K} {chi2p : K} :
    ∀ fuel lam, Stab (E.inner alpha beta p1 chi2p fuel lam) (E.inner alpha beta p1 chi2p (fuel + 1) lam)
  | 0, lam => Stab.fuel _
  | fuel + 1, lam => by
    rw [LmEnv.inner, LmEnv.inner]
    refine Stab.bind (Stab.refl _) fun x => Stab.bind (Stab.refl _) fun s => Stab.bind (Stab.refl _) fun c => ?_
    refine Stab.ite (Stab.refl _) (Stab.ite (Stab.refl _) ?_)
    exact Stab.bind (inner_stab fuel _) fun r => Stab.refl _

theorem inner_stab_le {alpha : List (List K)} {beta p1 : List K} {chi2p lam : K} {fuel fuel' : ℕ} (h : fuel ≤ fuel') :
    Stab (E.inner alpha beta p1 chi2p fuel lam) (E.inner alpha beta p1 chi2p fuel' lam) := by
  induction fuel', h using Nat.le_induction with
  | base => exact Stab.refl _
  | succ n _ ih => exact ih.trans (inner_stab n lam)

theorem outer_stab {fi fi' : ℕ} (h : fi ≤ fi') : ∀ fuel fuel' st, fuel ≤ fuel' → Stab (E.outer fi fuel st) (E.outer fi' fuel' st)
  | 0, fuel', st, _ => Stab.fuel _
  | fuel + 1, 0, st, hle => by omega
  | fuel + 1, fuel' + 1, st, hle => by
    rw [LmEnv.outer, LmEnv.outer]
    refine Stab.bind (Stab.refl _) fun gv => Stab.bind (Stab.refl _) fun dm => Stab.bind (Stab.refl _) fun beta =>
      Stab.bind (Stab.refl _) fun c => Stab.bind (Stab.refl _) fun ba => ?_
    refine Stab.ite (Stab.refl _) (Stab.bind (inner_stab_le h) fun r => ?_)
    refine Stab.ite (Stab.refl _) (Stab.ite (Stab.refl _) ?_)
    exact outer_stab h fuel fuel' _ (by omega)

theorem partialsLoop_term (F : UserF K) (pfull f0 : List K) (pmask : List Bool) (p : List K) :
    ∀ (ds : List K) (i : ℕ), Term (partialsLoop F pfull f0 pmask p ds i) ds.length (fun rows => rows.length = ds.length)
  | [], i => Term.ret rfl
  | d :: ds, i => by
    unfold partialsLoop
    refine Term.ite (fun _ => Term.mono Term.fail (Nat.zero_le _) fun _ h => h) fun _ => ?_
    refine Term.mono (n := 1 + (ds.length + 0)) (Term.bind Term.call fun v _ => Term.bind0
      fun dv _ => Term.bind (partialsLoop_term F pfull f0 pmask p ds (i + 1)) fun rest hr =>
        Term.ret (Q := fun rows : List (List K) => rows.length = (d :: ds).length) (by simp [hr])) (by simp; omega) fun _ h => h

theorem g_term (hE : EnvOK E) (p : List K) : Term (E.g p) (1 + E.pmask.countP id) (fun _ => True) := by
  unfold LmEnv.g
  refine Term.ite (fun _ => ?_) fun _ => ?_
  · refine Term.mono (Term.bind Term.callGen fun r _ => Term.ite (n := 0) (fun _ => Term.fail) fun _ => Term.ret trivial)
      (by omega) fun _ h => h
  · refine Term.mono (Term.bind Term.call fun f0 _ => Term.bind (n1 := E.pmask.countP id) (P := fun _ => True) ?_ fun rows _ =>
      Term.ret trivial) (by omega) fun _ h => h
    unfold numericalPartials
    refine Term.mono (Term.bind (n2 := E.pmask.countP id) (Q := fun _ => True) (Term.lift fun _ h => h) fun dp hdp => ?_) (by omega) fun _ h => h
    have hl := partialSteps_length hdp (by rw [hE.prel, E.full_length]) (by rw [hE.pabs, E.full_length])
      (by rw [hE.mask, E.full_length]) hE.pmax
    exact Term.mono (partialsLoop_term _ _ _ _ _ dp 0) (by omega) fun _ _ => trivial

theorem chi2At_term (p : List K) : Term (E.chi2At p) 1 (fun _ => True) := by
  unfold LmEnv.chi2At
  exact Term.mono (Term.bind Term.call fun v _ => Term.bind (P := fun _ => True) (Term.lift fun _ _ => trivial) fun _ _ =>
    Term.bind (P := fun _ => True) (Term.lift fun _ _ => trivial) fun _ _ =>
    Term.bind (P := fun _ => True) (Term.lift fun _ _ => trivial) fun _ _ => Term.ret trivial) (by omega) fun _ h => h

/-- The inner loop ends once `lamda` exceeds `lambdax`. -/
theorem inner_term (hg : 1 < E.cfg.gain) {alpha : List (List K)} {beta p1 : List K} {chi2p : K} :
    ∀ k fuel lam, 0 < lam → E.cfg.lambdax < lam * E.cfg.gain ^ k → k < fuel →
      Term (E.inner alpha beta p1 chi2p fuel lam) (k + 1) (fun r => lam ≤ r.2.2.1)
  | k, 0, lam, _, _, hk => by omega
  | k, fuel + 1, lam, hlam, hx, hk => by
    rw [LmEnv.inner]
    have hlt : lam < lam * E.cfg.gain := by nlinarith
    refine Term.mono (n := 1 + k) (Term.bind0 fun x _ => Term.bind0 fun s _ =>
      Term.bind (n2 := k) (chi2At_term _) fun c _ => ?_) (by omega) fun _ h => h
    refine Term.ite (fun _ => Term.mono (Term.ret (Q := fun r => lam ≤ r.2.2.1) (le_refl _)) (Nat.zero_le _) fun _ h => h) fun _ => ?_
    refine Term.ite (fun _ => Term.mono Term.fail (Nat.zero_le _) fun _ h => h) fun hle => ?_
    cases k with
    | zero =>
      exfalso
      simp only [pow_zero, mul_one] at hx
      exact hle (hx.trans hlt)
    | succ k =>
      refine Term.mono (Term.bind (inner_term hg k fuel (lam * E.cfg.gain) (hlam.trans hlt) ?_ (by omega)) fun r hr =>
        Term.ret (Q := fun r : List K × K × K × ℕ => lam ≤ r.2.2.1) ?_) (by omega) fun _ h => h
      · rw [pow_succ'] at hx
        calc E.cfg.lambdax < lam * (E.cfg.gain * E.cfg.gain ^ k) := hx
          _ = _ := by ring
      · exact hlt.le.trans hr

/-- The main loop makes at most `max itmax 1` rounds. -/
theorem outer_term (hE : EnvOK E) (hg : 1 < E.cfg.gain) {k0 : ℕ} (hl0 : 0 < E.cfg.lambda0)
    (hk0 : E.cfg.lambdax < E.cfg.lambda0 * E.cfg.gain ^ k0) {fi : ℕ} (hfi : k0 + max E.cfg.itmax 1 ≤ fi) :
    ∀ fuel st, st.niter < max E.cfg.itmax 1 → max E.cfg.itmax 1 ≤ fuel + st.niter → 0 < st.lam →
      E.cfg.lambda0 ≤ st.lam * E.cfg.gain ^ st.niter → st.path.length = st.niter →
      Term (E.outer fi fuel st)
        ((max E.cfg.itmax 1 - st.niter) * (1 + E.pmask.countP id + (k0 + max E.cfg.itmax 1)))
        (fun st' => st'.niter ≤ max E.cfg.itmax 1 ∧ st'.path.length ≤ max E.cfg.itmax 1)
  | 0, st, h1, h2, _, _, _ => by omega
  | fuel + 1, st, h1, h2, h3, h4, h5 => by
    rw [LmEnv.outer]
    set M := max E.cfg.itmax 1 with hM
    set n := E.pmask.countP id
    have hg0 : 0 < E.cfg.gain := by linarith
    have hin : ∀ alpha beta chi2p, Term (E.inner alpha beta st.p chi2p fi st.lam) (k0 + M)
        (fun r => st.lam ≤ r.2.2.1) := by
      intro alpha beta chi2p
      refine Term.mono (inner_term hg (k0 + st.niter) fi st.lam h3 ?_ (by omega)) (by omega) fun _ h => h
      calc E.cfg.lambdax < E.cfg.lambda0 * E.cfg.gain ^ k0 := hk0
        _ ≤ st.lam * E.cfg.gain ^ st.niter * E.cfg.gain ^ k0 := mul_le_mul_of_nonneg_right h4 (by positivity)
        _ = _ := by rw [pow_add]; ring
    have hM1 : M - st.niter = (M - (st.niter + 1)) + 1 := by omega
    refine Term.mono (Term.bind (n2 := (M - (st.niter + 1)) * (1 + n + (k0 + M)) + (k0 + M)) (g_term hE st.p) fun gv _ =>
      Term.bind0 fun dm _ => Term.bind0 fun beta _ => Term.bind0 fun c _ => Term.bind0 fun ba _ => ?_)
        (by rw [hM1, Nat.add_mul, Nat.one_mul]; omega) fun _ h => h
    refine Term.ite (fun _ => Term.mono (Term.ret ?_) (Nat.zero_le _) fun _ h => h) fun _ => ?_
    · exact ⟨by simpa using h1.le, by simp [h5]; omega⟩
    refine Term.mono (Term.bind (n2 := (M - (st.niter + 1)) * (1 + n + (k0 + M))) (hin _ _ _) fun r hr => ?_) (by omega) fun _ h => h
    refine Term.ite (fun _ => Term.mono (Term.ret ?_) (Nat.zero_le _) fun _ h => h) fun _ => ?_
    · exact ⟨by simpa using h1.le, by simp [h5]; omega⟩
    refine Term.ite (fun _ => Term.mono (Term.ret ?_) (Nat.zero_le _) fun _ h => h) fun hit => ?_
    · exact ⟨by simpa using h1, by simp [h5]; omega⟩
    · have hit : st.niter + 1 < E.cfg.itmax := not_le.1 hit
      have hlam : 0 < r.2.2.1 := lt_of_lt_of_le h3 hr
      refine outer_term hE hg hl0 hk0 hfi fuel _ ?_ ?_ ?_ ?_ ?_
      · exact lt_of_lt_of_le hit (le_max_left _ _)
      · change M ≤ fuel + (st.niter + 1); omega
      · exact div_pos hlam hg0
      · change E.cfg.lambda0 ≤ r.2.2.1 / E.cfg.gain * E.cfg.gain ^ (st.niter + 1)
        have : r.2.2.1 / E.cfg.gain * E.cfg.gain ^ (st.niter + 1) = r.2.2.1 * E.cfg.gain ^ st.niter := by
          rw [pow_succ', ← mul_assoc, div_mul_cancel₀ _ hg0.ne']
        rw [this]
        exact h4.trans (mul_le_mul_of_nonneg_right hr (by positivity))
      · simp [h5]

variable {A : LmArgs K} {F : UserF K} {solve : List (List K) → List K → Except PyErr (List K)}

theorem levmar_term (hs : SolveLen solve) (hg : 1 < A.cfg.gain) (hl0 : 0 < A.cfg.lambda0) {k0 : ℕ}
    (hk0 : A.cfg.lambdax < A.cfg.lambda0 * A.cfg.gain ^ k0) (inv : List (List K) → Except PyErr (List (List K)))
    {fo fi : ℕ} (hfo : max A.cfg.itmax 1 ≤ fo) (hfi : k0 + max A.cfg.itmax 1 ≤ fi) :
    (levmar A F solve inv fo fi).1 ≠ .error .fuel ∧
    (levmar A F solve inv fo fi).2.length ≤ max A.cfg.itmax 1 * (1 + A.p0.length + k0 + max A.cfg.itmax 1) ∧
    ∀ r, (levmar A F solve inv fo fi).1 = .ok r → r.niter ≤ max A.cfg.itmax 1 ∧ r.path.length ≤ max A.cfg.itmax 1 := by
  unfold levmar
  cases hE : A.env F solve with
  | error e => exact ⟨by simp, by simp, fun r hr => by cases hr⟩
  | ok E =>
    have h := env_ok hE
    have hok := h.ok hs
    have h1 := outer_term hok (E := E) (k0 := k0) (fi := fi) (by rw [h.cfg]; exact hg) (by rw [h.cfg]; exact hl0)
      (by rw [h.cfg]; exact hk0) (by rw [h.cfg]; exact hfi) fo E.init (by simp only [LmEnv.init]; omega) (by rw [h.cfg]; simp only [LmEnv.init]; omega)
      (by simp only [LmEnv.init, h.cfg]; exact hl0) (by simp [LmEnv.init]) (by simp [LmEnv.init])
    have h2 : Term (E.outer fi fo E.init >>= fun st => Run.lift (E.finish inv st))
        ((max E.cfg.itmax 1 - E.init.niter) * (1 + List.countP id E.pmask + (k0 + max E.cfg.itmax 1)) + 0)
        (fun r => r.niter ≤ max E.cfg.itmax 1 ∧ r.path.length ≤ max E.cfg.itmax 1) := by
      refine Term.bind h1 fun st hst => Term.lift fun r hr => ?_
      unfold LmEnv.finish at hr
      simp only [bind, Except.bind, pure, Except.pure] at hr
      split at hr
      · cases hr
      · cases hr; exact hst
    obtain ⟨⟨l, hl, hn⟩, hf, hv⟩ := h2 []
    refine ⟨hf, ?_, ?_⟩
    · have hc : E.pmask.countP id ≤ A.p0.length := by
        rw [← h.mask_len]; exact List.countP_le_length
      have : max A.cfg.itmax 1 * (1 + E.pmask.countP id + (k0 + max A.cfg.itmax 1)) ≤
          max A.cfg.itmax 1 * (1 + A.p0.length + k0 + max A.cfg.itmax 1) := Nat.mul_le_mul_left _ (by omega)
      rw [h.cfg] at hn
      simp only [LmEnv.init, Nat.sub_zero, Nat.add_zero] at hn
      rw [List.nil_append] at hl
      change (_ : List (List K)).length ≤ _
      have e : ((E.outer fi fo E.init >>= fun st => Run.lift (E.finish inv st)) []).2.length ≤
          max A.cfg.itmax 1 * (1 + A.p0.length + k0 + max A.cfg.itmax 1) := by
        rw [hl]; exact hn.trans this
      exact e
    · rw [h.cfg] at hv; exact hv

/-- C46.  With `gain > 1` and `lambda0 > 0`, levmar terminates: there is a bound on the rounds of its loops, the same
for every user function and all data, such that the run never needs more (so its result does not depend on the
fuel of the model).  It returns or raises a Python exception, after at most `B` calls of `f`, where `B` depends only
on the configuration and on the number of parameters, and after at most `max itmax 1` gradient evaluations. -/
theorem C46_terminates [Archimedean K] (cfg : LmCfg K) (hg : 1 < cfg.gain) (hl0 : 0 < cfg.lambda0) (np : ℕ) :
    ∃ N B : ℕ, ∀ (A : LmArgs K) (F : UserF K) (solve : List (List K) → List K → Except PyErr (List K))
      (inv : List (List K) → Except PyErr (List (List K))), A.cfg = cfg → A.p0.length = np → SolveLen solve →
      ∀ fo fi, N ≤ fo → N ≤ fi →
        levmar A F solve inv fo fi = levmar A F solve inv N N ∧
        (levmar A F solve inv N N).1 ≠ .error .fuel ∧ (levmar A F solve inv N N).2.length ≤ B ∧
        ∀ r, (levmar A F solve inv N N).1 = .ok r → r.niter ≤ max cfg.itmax 1 ∧ r.path.length ≤ max cfg.itmax 1 := by
  obtain ⟨k0, hk0⟩ := pow_unbounded_of_one_lt (cfg.lambdax / cfg.lambda0) hg
  rw [div_lt_iff₀ hl0] at hk0
  refine ⟨k0 + max cfg.itmax 1, max cfg.itmax 1 * (1 + np + k0 + max cfg.itmax 1), ?_⟩
  intro A F solve inv hA hn hs fo fi hfo hfi
  subst hA hn
  obtain ⟨h1, h2, h3⟩ := levmar_term (F := F) hs hg hl0 (k0 := k0) (by rw [mul_comm]; exact hk0) inv
    (fo := k0 + max A.cfg.itmax 1) (fi := k0 + max A.cfg.itmax 1) (by omega) (le_refl _)
  refine ⟨?_, h1, h2, h3⟩
  unfold levmar at h1 ⊢
  cases hE : A.env F solve with
  | error e => rfl
  | ok E =>
    rw [hE] at h1
    exact Stab.bind (outer_stab hfi _ _ _ hfo) (fun st => Stab.refl _) [] h1

end lm
end Npplus
