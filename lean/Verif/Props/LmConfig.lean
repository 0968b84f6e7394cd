import Verif.Model.LmConfig
import Verif.Props.LevmarLin

/-!
# C116: the configuration of levmar
-/

set_option linter.unusedSectionVars false
namespace Npplus
open Npplus.Spec Npplus.ItemAttr

namespace Spec
variable {K : Type} [Field K] [LinearOrder K]

/-- The value of an option for one call: from `cfg` when it is there, otherwise from `levmar.config`. -/
def option (config : CDict K) (cfg : Option (CDict K)) (k : Key) : Except PyErr (CfgVal K) :=
  match cfg with
  | none => dget config k
  | some d => match dget d k with
    | .ok v => .ok v
    | .error _ => dget config k

/-- a dict has every key once -/
def Distinct (d : CDict K) : Prop := (d.map Prod.fst).Nodup

/-- The options as documented: `c` holds the values of `itmax`, `tol`, ...; `prel`, `pabs` only matter for a plain function without these arguments. -/
structure Options (opt : String → Except PyErr (CfgVal K)) (A : LmArgs K) (F : UserF K) (c : LmCfg K) : Prop where
  itmax : opt "itmax" = .ok (.int c.itmax)
  tol : (opt "tol").bind CfgVal.toNum = .ok c.tol
  lambda0 : (opt "lambda0").bind CfgVal.toNum = .ok c.lambda0
  lambdax : (opt "lambdax").bind CfgVal.toNum = .ok c.lambdax
  gain : (opt "gain").bind CfgVal.toNum = .ok c.gain
  prel : if F.isgen = true ∨ A.prel.isSome = true then c.prel = 0 else (opt "prel").bind CfgVal.toNum = .ok c.prel
  pabs : if F.isgen = true ∨ A.pabs.isSome = true then c.pabs = 0 else (opt "pabs").bind CfgVal.toNum = .ok c.pabs

end Spec

variable {K : Type} [Field K] [LinearOrder K]

namespace CfgAux

theorem dget_dset (d : CDict K) (k k' : Key) (v : CfgVal K) : dget (dset d k v) k' = if k = k' then .ok v else dget d k' := by
  induction d with
  | nil => simp only [dset, dget]
  | cons a d ih =>
    obtain ⟨ka, va⟩ := a
    simp only [dset]
    by_cases h1 : ka = k
    · subst h1
      simp only [if_true, dget]
      split_ifs <;> rfl
    · rw [if_neg h1]
      simp only [dget, ih]
      by_cases h2 : ka = k'
      · subst h2
        rw [if_pos rfl, if_pos rfl, if_neg (fun e => h1 e.symm)]
      · rw [if_neg h2, if_neg h2]

theorem dget_err {d : CDict K} {k : Key} (h : k ∉ d.map Prod.fst) : dget d k = .error .keyError := by
  induction d with
  | nil => rfl
  | cons a d ih =>
    obtain ⟨ka, va⟩ := a
    simp only [List.map_cons, List.mem_cons, not_or] at h
    simp only [dget]
    rw [if_neg (fun e => h.1 e.symm), ih h.2]

theorem dget_update (d e : CDict K) (he : Distinct e) (k : Key) :
    dget (CDict.update d e) k = match dget e k with | .ok v => .ok v | .error _ => dget d k := by
  induction e generalizing d with
  | nil => rfl
  | cons a e ih =>
    obtain ⟨ka, va⟩ := a
    unfold Distinct at he
    rw [List.map_cons, List.nodup_cons] at he
    unfold CDict.update at ih ⊢
    rw [List.foldl_cons, ih _ he.2, dget_dset]
    simp only [dget]
    by_cases h : ka = k
    · subst h
      rw [dget_err he.1]
      simp
    · rw [if_neg h, if_neg h]

/-- the dictionary a call works with -/
def eff (config : CDict K) (cfg : Option (CDict K)) : CDict K :=
  match cfg with
  | none => config
  | some d => CDict.update config d

theorem dget_eff (config : CDict K) (cfg : Option (CDict K)) (hd : ∀ d, cfg = some d → Distinct d) (k : Key) :
    dget (eff config cfg) k = Spec.option config cfg k := by
  unfold eff Spec.option
  cases cfg with
  | none => rfl
  | some d => exact dget_update _ _ (hd d rfl) k

section
variable {A : LmArgs K} {F : UserF K} {solve : List (List K) → List K → Except PyErr (List K)} {inv : List (List K) → Except PyErr (List (List K))}
    {fo fi : ℕ} {h : CHeap K} {config : ℕ} {cfg : Option ℕ}

/-- the dictionaries named in a call exist -/
def Refs (h : CHeap K) (config : ℕ) (cfg : Option ℕ) : Prop := config < h.length ∧ ∀ c, cfg = some c → c < h.length

/-- the contents of the dictionary passed by keyword -/
def cfgD (h : CHeap K) (cfg : Option ℕ) : Option (CDict K) := cfg.map fun c => h.getD c []

theorem call_eq (hr : Refs h config cfg) : levmarCall h config cfg A F solve inv fo fi =
    match levmarWith (eff (h.getD config []) (cfgD h cfg)) A F solve inv fo fi with
    | .error e => (.error e, h ++ [eff (h.getD config []) (cfgD h cfg)])
    | .ok r => (.ok (r, h.length), h ++ [CDict.update (eff (h.getD config []) (cfgD h cfg)) (infoItems r)]) := by
  have e1 : ∀ (l : CHeap K) (x y : CDict K), (l ++ [x]).set l.length y = l ++ [y] := fun l x y => by
    rw [List.set_append_right _ _ (le_refl _)]; simp
  have e2 : ∀ (l : CHeap K) (x : CDict K), (l ++ [x]).getD l.length [] = x := fun l x => by
    simp
  unfold levmarCall eff cfgD
  cases cfg with
  | none => simp only [Option.map_none, e1, e2]; rfl
  | some c =>
    have hc := hr.2 c rfl
    have e3 : (h ++ [h.getD config []]).getD c [] = h.getD c [] := by
      simp only [List.getD_eq_getElem?_getD]
      rw [List.getElem?_append_left hc]
    simp only [Option.map_some, e1, e2, e3]
    rfl

end
end CfgAux

open CfgAux

section
variable {A : LmArgs K} {F : UserF K} {solve : List (List K) → List K → Except PyErr (List K)} {inv : List (List K) → Except PyErr (List (List K))}
    {fo fi : ℕ} {h : CHeap K} {config : ℕ} {cfg : Option ℕ}

/-- **C116**, nothing is changed: a call of `levmar`, also one that raises, leaves every dictionary that existed before as it was, in particular
`levmar.config` and the one passed as `cfg`; and the `info` of the result is a new dictionary. -/
theorem C116_unchanged (hr : Refs h config cfg) :
    (∀ i < h.length, (levmarCall h config cfg A F solve inv fo fi).2[i]? = h[i]?) ∧
      ∀ r info, (levmarCall h config cfg A F solve inv fo fi).1 = .ok (r, info) → info = h.length := by
  rw [call_eq hr]
  split
  · exact ⟨fun i hi => List.getElem?_append_left hi, fun r info he => by cases he⟩
  · exact ⟨fun i hi => List.getElem?_append_left hi, fun r info he => by cases he; rfl⟩

/-- **C116**, the options: when every option has a value of the right type, the call runs with the values of `cfg` where given and those of
`levmar.config` otherwise. -/
theorem C116_options (hr : Refs h config cfg) (hd : ∀ d ∈ cfgD h cfg, Distinct d) {c : LmCfg K}
    (hc : Options (fun k => Spec.option (h.getD config []) (cfgD h cfg) (ckey k)) A F c) :
    (levmarCall h config cfg A F solve inv fo fi).1.map Prod.fst = (levmar { A with cfg := c } F solve inv fo fi).1 := by
  have hg := fun k => dget_eff (h.getD config []) (cfgD h cfg) (fun d e => hd d e) (ckey k)
  set d := eff (h.getD config []) (cfgD h cfg) with hdd
  have hnum : ∀ k, d.num k = (Spec.option (h.getD config []) (cfgD h cfg) (ckey k)).bind CfgVal.toNum := fun k => by
    rw [← hg]; rfl
  have hstep : ∀ (arg : Option (List K)) k (x : K), (if F.isgen = true ∨ arg.isSome = true then x = 0 else d.num k = .ok x) →
      d.step F.isgen arg k = .ok x := fun arg k x hx => by
    unfold CDict.step
    by_cases h0 : F.isgen = true ∨ arg.isSome = true
    · rw [if_pos h0] at hx
      rw [if_pos (by simpa using h0), hx]
    · rw [if_neg h0] at hx
      rw [if_neg (by simpa using h0), hx]
  have h1 := hstep A.prel "prel" c.prel (by rw [hnum]; exact hc.prel)
  have h2 := hstep A.pabs "pabs" c.pabs (by rw [hnum]; exact hc.pabs)
  have h3 : d.read c.prel c.pabs = .ok c := by
    have e : dget d (ckey "itmax") = .ok (.int c.itmax) := (hg "itmax").trans hc.itmax
    unfold CDict.read
    rw [hnum, hnum, hnum, hnum, hc.tol, hc.lambda0, hc.lambdax, hc.gain, e]
    rfl
  have hkey : levmarWith d A F solve inv fo fi = (levmar { A with cfg := c } F solve inv fo fi).1 := by
    unfold levmarWith
    rw [h1, h2]
    cases hb : bcast1 A.data.length A.errs with
    | error e =>
      simp only
      unfold levmar LmArgs.env
      simp only [bind, Except.bind, hb]
    | ok errs' =>
    simp only
    have henv : (∀ e, ({ A with cfg := ⟨0, 0, 0, 0, 0, c.prel, c.pabs⟩ } : LmArgs K).env F solve = .error e →
        ({ A with cfg := c } : LmArgs K).env F solve = .error e) := by
      intro e he
      unfold LmArgs.env at he ⊢
      simp only [bind, Except.bind, pure, Except.pure] at he ⊢
      split at he
      · rename_i e1; cases he
        simp_all
      repeat' (split at he)
      all_goals simp_all
    cases he : ({ A with cfg := ⟨0, 0, 0, 0, 0, c.prel, c.pabs⟩ } : LmArgs K).env F solve with
    | error e =>
      simp only
      unfold levmar
      rw [henv e he]
    | ok E =>
      simp only
      rw [h3]
  rw [call_eq hr, ← hkey]
  split <;> rename_i h4 <;> rw [h4] <;> rfl

/-- **C116**, missing options: when one of the five options that every call needs is in neither dictionary, the call raises. -/
theorem C116_missing_error (hr : Refs h config cfg) (hd : ∀ d ∈ cfgD h cfg, Distinct d) {k : String}
    (hk : k ∈ ["itmax", "tol", "lambda0", "lambdax", "gain"]) {e : PyErr} (hm : Spec.option (h.getD config []) (cfgD h cfg) (ckey k) = .error e) :
    ∃ e', (levmarCall h config cfg A F solve inv fo fi).1 = .error (.raised e') := by
  have hg := dget_eff (h.getD config []) (cfgD h cfg) (fun d e => hd d e) (ckey k)
  rw [hm] at hg
  set d := eff (h.getD config []) (cfgD h cfg) with hdd
  have hread : ∀ a b, ∃ e', d.read a b = .error e' := by
    intro a b
    cases hx : d.read a b with
    | error e' => exact ⟨e', rfl⟩
    | ok c =>
      exfalso
      unfold CDict.read CDict.num at hx
      simp only [bind, Except.bind, pure, Except.pure] at hx
      simp only [List.mem_cons, List.not_mem_nil, or_false] at hk
      repeat' (split at hx)
      all_goals first
        | (cases hx; done)
        | (rcases hk with rfl | rfl | rfl | rfl | rfl <;> simp_all)
  have : ∃ e', levmarWith d A F solve inv fo fi = .error (.raised e') := by
    unfold levmarWith
    split
    · exact ⟨_, rfl⟩
    · split
      · exact ⟨_, rfl⟩
      · exact ⟨_, rfl⟩
      · split
        · exact ⟨_, rfl⟩
        · rename_i prel pabs _ _ _ _ _
          obtain ⟨e', he'⟩ := hread prel pabs
          rw [he']
          exact ⟨_, rfl⟩
  obtain ⟨e', he'⟩ := this
  rw [call_eq hr, ← hdd, he']
  exact ⟨e', rfl⟩

/-- **C116**, the report: `info` holds the values computed, and all the options of the call. -/
theorem C116_info (hr : Refs h config cfg) (hd : ∀ d ∈ cfgD h cfg, Distinct d) {r : LmFit K} {info : ℕ} {h' : CHeap K}
    (hcall : levmarCall h config cfg A F solve inv fo fi = (.ok (r, info), h')) :
    dget (h'.getD info []) (ckey "src") = .ok (.str "levmar".toList) ∧ dget (h'.getD info []) (ckey "niter") = .ok (.int r.niter) ∧
      dget (h'.getD info []) (ckey "neval") = .ok (.int r.neval) ∧ dget (h'.getD info []) (ckey "p0") = .ok (.vec r.p0) ∧
      dget (h'.getD info []) (ckey "chi20") = .ok (.num r.chi20) ∧ dget (h'.getD info []) (ckey "lamda") = .ok (.num r.lamda) ∧
      ∀ k, (∀ s ∈ ["src", "niter", "neval", "p0", "chi20", "lamda"], k ≠ ckey s) →
        dget (h'.getD info []) k = Spec.option (h.getD config []) (cfgD h cfg) k := by
  rw [call_eq hr] at hcall
  split at hcall
  · simp at hcall
  rename_i r0 h4
  simp only [Prod.mk.injEq, Except.ok.injEq] at hcall
  obtain ⟨⟨rfl, rfl⟩, rfl⟩ := hcall
  have e : (h ++ [CDict.update (eff (h.getD config []) (cfgD h cfg)) (infoItems r0)]).getD h.length [] =
      CDict.update (eff (h.getD config []) (cfgD h cfg)) (infoItems r0) := by simp [List.getD_append_right]
  have hdist : Distinct (infoItems r0) := by
    unfold Distinct infoItems
    simp only [List.map_cons, List.map_nil]
    decide
  have hg := dget_eff (h.getD config []) (cfgD h cfg) (fun d e => hd d e)
  rw [e]
  simp only [dget_update _ _ hdist, hg]
  refine ⟨?_, ?_, ?_, ?_, ?_, ?_, fun k hk => ?_⟩
  · rfl
  · rfl
  · rfl
  · rfl
  · rfl
  · rfl
  · rw [dget_err]
    intro hm
    simp only [infoItems, List.map_cons, List.map_nil, List.mem_cons, List.not_mem_nil, or_false] at hm
    rcases hm with rfl | rfl | rfl | rfl | rfl | rfl
    · exact hk "src" (by simp) rfl
    · exact hk "niter" (by simp) rfl
    · exact hk "neval" (by simp) rfl
    · exact hk "p0" (by simp) rfl
    · exact hk "chi20" (by simp) rfl
    · exact hk "lamda" (by simp) rfl

/-- What a program does with the dictionaries. -/
inductive CfgOp (K : Type) where
  /-- call `levmar` with the given keyword -/
  | call (cfg : Option ℕ) (A : LmArgs K) (F : UserF K)
  /-- make a dictionary -/
  | make (d : CDict K)
  /-- `d[k] = v` for the dictionary object `ref` -/
  | setItem (ref : ℕ) (k : Key) (v : CfgVal K)

/-- the heap after an operation (calls with a dictionary that does not exist do nothing) -/
def cfgStep (solve : List (List K) → List K → Except PyErr (List K)) (inv : List (List K) → Except PyErr (List (List K))) (fo fi config : ℕ)
    (h : CHeap K) : CfgOp K → CHeap K
  | .call cfg A F => if cfg.all (· < h.length) then (levmarCall h config cfg A F solve inv fo fi).2 else h
  | .make d => h ++ [d]
  | .setItem ref k v => h.set ref (dset (h.getD ref []) k v)

/-- **C116**, histories: whatever sequence of calls and assignments a program makes, a dictionary (such as `levmar.config`, or the `info` of an earlier
fit) changes only by assignments to itself. -/
theorem C116_history (ops : List (CfgOp K)) (h : CHeap K) (hcfg : config < h.length) (i : ℕ) (hi : i < h.length)
    (hno : ∀ op ∈ ops, ∀ k v, op ≠ .setItem i k v) :
    (ops.foldl (cfgStep solve inv fo fi config) h)[i]? = h[i]? := by
  induction ops generalizing h with
  | nil => rfl
  | cons op ops ih =>
    rw [List.foldl_cons]
    have key : h.length ≤ (cfgStep solve inv fo fi config h op).length ∧ (cfgStep solve inv fo fi config h op)[i]? = h[i]? := by
      cases op with
      | call cfg A F =>
        simp only [cfgStep]
        split_ifs with hc
        · have hr : Refs h config cfg := ⟨hcfg, fun c e => by subst e; simpa using hc⟩
          refine ⟨?_, (C116_unchanged hr).1 i hi⟩
          rw [call_eq hr]
          split <;> simp
        · exact ⟨le_refl _, rfl⟩
      | make d => exact ⟨by simp [cfgStep], List.getElem?_append_left hi⟩
      | setItem ref k v =>
        have hne : ref ≠ i := fun e => hno (.setItem ref k v) (by simp) k v (by rw [e])
        simp only [cfgStep]
        exact ⟨by simp, List.getElem?_set_ne hne⟩
    rw [ih _ (hcfg.trans_le key.1) (hi.trans_le key.1) fun op' h' => hno op' (List.mem_cons_of_mem _ h'), key.2]

end

/-! ### a concrete case -/

/-- lsqfit.py:393-394 the default configuration, as a dictionary -/
def defaultConfig : CDict ℚ :=
  [(ckey "itmax", .int 100), (ckey "tol", .num (1 / 10 ^ 7)), (ckey "lambda0", .num (1 / 1000)), (ckey "lambdax", .num (10 ^ 12)),
    (ckey "gain", .num 10), (ckey "prel", .num (1 / 10 ^ 6)), (ckey "pabs", .num (1 / 10 ^ 9))]

/-- the default configuration and `cfg=dict(tol=0, pabs=1/8)` -/
def cfgHeap : CHeap ℚ := [defaultConfig, [(ckey "tol", .int 0), (ckey "pabs", .num (1 / 8))]]

example : Refs cfgHeap 0 (some 1) ∧ ∀ d ∈ cfgD cfgHeap (some 1), Distinct d := by
  refine ⟨⟨by decide, fun c e => by cases e; decide⟩, fun d hd => ?_⟩
  simp only [cfgD, Option.map_some, Option.mem_def, Option.some.injEq] at hd
  subst hd
  unfold Distinct
  decide

example : Options (fun k => Spec.option (cfgHeap.getD 0 []) (cfgD cfgHeap (some 1)) (ckey k)) linArgs linUser
    { LmCfg.default with tol := 0, pabs := 1 / 8 } :=
  ⟨rfl, by show Except.ok ((0 : ℕ) : ℚ) = Except.ok 0; simp, rfl, rfl, rfl, rfl, rfl⟩

/-- an option missing in both -/
example : Spec.option ([] : CDict ℚ) (some [(ckey "tol", .num 1)]) (ckey "gain") = .error .keyError := rfl

end Npplus
