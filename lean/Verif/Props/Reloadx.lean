import Verif.Model.Plot

/-!
# C73, C77: reloadx
-/

set_option linter.unusedSectionVars false
namespace Npplus
open ItemAttr (Name)

/-- Specification: names that begin and end with two underscores. -/
def DunderName (nm : Name) : Prop := (∃ t, nm = ['_', '_'] ++ t) ∧ ∃ t, nm = t ++ ['_', '_']

theorem isDunder_iff (nm : Name) : isDunder nm = true ↔ DunderName nm := by
  unfold isDunder DunderName
  rw [Bool.and_eq_true, List.isPrefixOf_iff_prefix, List.isSuffixOf_iff_suffix]
  constructor
  · rintro ⟨⟨t, ht⟩, ⟨s, hs⟩⟩; exact ⟨⟨t, ht.symm⟩, ⟨s, hs.symm⟩⟩
  · rintro ⟨⟨t, ht⟩, ⟨s, hs⟩⟩; exact ⟨⟨t, ht.symm⟩, ⟨s, hs.symm⟩⟩

/-- Specification of what `reloadx` does to `__main__` and to the module, given the namespace `ns` the module has after
its source was run.  `my` is the name `my`. -/
def ReloadxSpec {V : Type} (mainV : V) (ns main main' mod' : Ns V) : Prop :=
  (∀ nm v, ns nm = some v → ¬ DunderName nm → main' nm = some v) ∧
  (∀ nm, DunderName nm ∨ ns nm = none → main' nm = main nm) ∧
  (ns "my".toList = none → mod' "my".toList = some mainV) ∧
  (∀ nm, nm ≠ "my".toList ∨ ns "my".toList ≠ none → mod' nm = ns nm)

section
variable {V : Type} (exec : Exec V) (nameOf : ℕ → Name) (mainV : V)

theorem copyNames_spec (ns main : Ns V) :
    (∀ nm v, ns nm = some v → ¬ DunderName nm → copyNames ns main nm = some v) ∧
    (∀ nm, DunderName nm ∨ ns nm = none → copyNames ns main nm = main nm) := by
  refine ⟨fun nm v h hd => ?_, fun nm h => ?_⟩
  · rw [← isDunder_iff] at hd
    unfold copyNames; rw [h]; simp [hd]
  · rw [← isDunder_iff] at h
    unfold copyNames
    cases hn : ns nm with
    | none => rfl
    | some v =>
      rw [hn] at h
      have : isDunder nm = true := h.resolve_right (by simp)
      simp [this]

/-- **C73**, module object: if the object is the one in `sys.modules` and its source runs without error, ending with
namespace `ns` (started from the old namespace), then `reloadx` succeeds with the effects of `ReloadxSpec`; other module
objects and `sys.modules` are unchanged. -/
theorem C73_object (id : ℕ) (w : World V) (ns : Ns V) (hs : w.sysmod (nameOf id) = some id)
    (he : exec (nameOf id) (w.mods id) = (.ok (), ns)) :
    ∃ w', reloadx exec nameOf mainV (.obj id) w = (.ok id, w') ∧ ReloadxSpec mainV ns w.main w'.main (w'.mods id) ∧
      (∀ k, k ≠ id → w'.mods k = w.mods k) ∧ w'.sysmod = w.sysmod := by
  unfold reloadx
  have hc := copyNames_spec ns w.main
  simp only [hs, ne_eq, not_true_eq_false, if_false, he, if_true]
  refine ⟨_, rfl, ?_, ?_, ?_⟩
  · split
    · rename_i hm
      refine ⟨hc.1, hc.2, fun _ => by simp [Ns.set], fun nm h => ?_⟩
      have h' := h.resolve_right (by
        have : ns "my".toList = none := by simpa using hm
        exact not_not_intro this)
      have h'' : nm ≠ ['m', 'y'] := h'
      simp [Ns.set, h'']
    · rename_i hm
      refine ⟨hc.1, hc.2, fun h => absurd ?_ hm, fun nm _ => by simp⟩
      simpa using h
  · intro k hk; split <;> simp [hk]
  · split <;> rfl

/-- **C73**, module name: the module is imported afresh as a new object that replaces the old one in `sys.modules`; the
namespace `ns` no longer depends on the old module, which is unchanged. -/
theorem C73_name (n : Name) (w : World V) (ns : Ns V) (he : exec n (fun _ => none) = (.ok (), ns)) :
    ∃ w', reloadx exec nameOf mainV (.name n) w = (.ok w.next, w') ∧
      ReloadxSpec mainV ns w.main w'.main (w'.mods w.next) ∧ (∀ k, k ≠ w.next → w'.mods k = w.mods k) ∧
      w'.sysmod n = some w.next ∧ ∀ k, k ≠ n → w'.sysmod k = w.sysmod k := by
  unfold reloadx
  have hc := copyNames_spec ns w.main
  simp only [he, if_true]
  refine ⟨_, rfl, ?_, ?_, ?_, ?_⟩
  · split
    · rename_i hm
      refine ⟨hc.1, hc.2, fun _ => by simp [Ns.set], fun nm h => ?_⟩
      have h' := h.resolve_right (by
        have : ns "my".toList = none := by simpa using hm
        exact not_not_intro this)
      have h'' : nm ≠ ['m', 'y'] := h'
      simp [Ns.set, h'']
    · rename_i hm
      refine ⟨hc.1, hc.2, fun h => absurd ?_ hm, fun nm _ => by simp⟩
      simpa using h
  · intro k hk; split <;> simp [hk]
  · split <;> simp
  · intro k hk; split <;> simp [hk]

/-- **C73**: if `reloadx` raises, `__main__` is unchanged. -/
theorem C73_failure (arg : ModArg) (w w' : World V) (e : PyErr) (h : reloadx exec nameOf mainV arg w = (.error e, w')) :
    w'.main = w.main := by
  unfold reloadx at h
  cases arg with
  | obj id =>
    by_cases hs : w.sysmod (nameOf id) = some id
    · rcases he : exec (nameOf id) (w.mods id) with ⟨r, ns⟩
      simp only [hs, ne_eq, not_true_eq_false, if_false, he] at h
      cases r with
      | error e' => cases h; rfl
      | ok u => simp at h
    · simp only [ne_eq, hs, not_false_iff, if_true] at h
      cases h; rfl
  | name n =>
    rcases he : exec n (fun _ => none) with ⟨r, ns⟩
    simp only [he] at h
    cases r with
    | error e' => cases h; rfl
    | ok u => simp at h

/-- **C73**: `reloadx` raises the error of the module's own code, and otherwise only ImportError for an object that is
not the one in `sys.modules`. -/
theorem C73_failure_cause (arg : ModArg) (w w' : World V) (e : PyErr) (h : reloadx exec nameOf mainV arg w = (.error e, w')) :
    (e = .importError ∧ ∃ id, arg = .obj id ∧ w.sysmod (nameOf id) ≠ some id) ∨ ∃ n ns, (exec n ns).1 = .error e := by
  unfold reloadx at h
  cases arg with
  | obj id =>
    by_cases hs : w.sysmod (nameOf id) = some id
    · rcases he : exec (nameOf id) (w.mods id) with ⟨r, ns⟩
      simp only [hs, ne_eq, not_true_eq_false, if_false, he] at h
      cases r with
      | error e' => cases h; exact .inr ⟨_, _, by rw [he]⟩
      | ok u => simp at h
    · simp only [ne_eq, hs, not_false_iff, if_true] at h
      cases h; exact .inl ⟨rfl, id, rfl, hs⟩
  | name n =>
    rcases he : exec n (fun _ => none) with ⟨r, ns⟩
    simp only [he] at h
    cases r with
    | error e' => cases h; exact .inr ⟨_, _, by rw [he]⟩
    | ok u => simp at h

/-- **C73**, consequence of reloading by name: any older object of this module can no longer be reloaded, by `reloadx` or
otherwise (`sys.modules` has the new one). -/
theorem C73_stale_object (n : Name) (id : ℕ) (w w' : World V) (ns : Ns V) (hid : id < w.next) (hn : nameOf id = n)
    (he : exec n (fun _ => none) = (.ok (), ns)) (h : (reloadx exec nameOf mainV (.name n) w).2 = w') :
    (reloadx exec nameOf mainV (.obj id) w').1 = .error .importError := by
  obtain ⟨w'', h1, -, -, h2, -⟩ := C73_name exec nameOf mainV n w ns he
  rw [h1] at h
  have h : w'' = w' := h
  subst h
  unfold reloadx
  have : w''.sysmod (nameOf id) ≠ some id := by
    rw [hn, h2]; intro h; simp at h; omega
  simp only [ne_eq, this, not_false_iff, if_true]

/-! ### C77: "shorthand for reload(module); from module import *" -/

/-- Specification of the public names: those in `__all__` if the module has one, otherwise those that do not begin with
an underscore. -/
def Exported (all : Option (List Name)) (nm : Name) : Prop :=
  match all with
  | some l => nm ∈ l
  | none => nm.head? ≠ some '_'

/-- Specification of `from module import *`: the names in `__all__` if the module has one (`all = some names`), otherwise
those that do not begin with an underscore, are bound; all others are left alone. -/
def ImportStar (all : Option (List Name)) (ns main main' : Ns V) : Prop :=
  ∀ nm, ((Exported all nm ∧ ns nm ≠ none) → main' nm = ns nm) ∧ (¬ (Exported all nm ∧ ns nm ≠ none) → main' nm = main nm)

/-- **C77, partial**: for a module without `__all__` in
which every name that begins with an underscore is a dunder name, `reloadx` of a module object does to `__main__` exactly
what `reload(module); from module import *` does.  Missing: modules with `__all__` or with private names. -/
theorem C77_import_star_partial (id : ℕ) (w : World V) (ns : Ns V) (hs : w.sysmod (nameOf id) = some id)
    (he : exec (nameOf id) (w.mods id) = (.ok (), ns))
    (hp : ∀ nm, ns nm ≠ none → nm.head? = some '_' → DunderName nm) :
    ImportStar none ns w.main (reloadx exec nameOf mainV (.obj id) w).2.main := by
  obtain ⟨w', h1, h2, -⟩ := C73_object exec nameOf mainV id w ns hs he
  rw [h1]
  intro nm
  refine ⟨fun ⟨hu, hn⟩ => ?_, fun h => ?_⟩
  · obtain ⟨v, hv⟩ := Option.ne_none_iff_exists'.1 hn
    rw [hv]
    refine h2.1 nm v hv fun hd => hu ?_
    obtain ⟨⟨t, ht⟩, -⟩ := hd
    rw [ht]; rfl
  · by_cases hn : ns nm = none
    · exact h2.2.1 nm (.inr hn)
    · refine h2.2.1 nm (.inl (hp nm hn ?_))
      by_contra hu
      exact h ⟨hu, hn⟩

/-- **C77, refuted**: a private name (`_x`) of the module is bound in `__main__`, so `reloadx` is not
`from module import *` for any module that has one which `__main__` does not have with the same value. -/
theorem C77_private_refuted (id : ℕ) (w : World V) (ns : Ns V) (hs : w.sysmod (nameOf id) = some id)
    (he : exec (nameOf id) (w.mods id) = (.ok (), ns)) (nm : Name) (hu : nm.head? = some '_') (hd : ¬ DunderName nm)
    (hn : ns nm ≠ none) (hne : ns nm ≠ w.main nm) :
    ¬ ImportStar none ns w.main (reloadx exec nameOf mainV (.obj id) w).2.main := by
  obtain ⟨w', h1, h2, -⟩ := C73_object exec nameOf mainV id w ns hs he
  rw [h1]
  intro h
  have h := (h nm).2 fun hx => hx.1 hu
  obtain ⟨v, hv⟩ := Option.ne_none_iff_exists'.1 hn
  rw [h2.1 nm v hv hd, ← hv] at h
  exact hne h

/-- **C77, refuted**: names outside `__all__` are bound as well. -/
theorem C77_all_refuted (id : ℕ) (w : World V) (ns : Ns V) (hs : w.sysmod (nameOf id) = some id)
    (he : exec (nameOf id) (w.mods id) = (.ok (), ns)) (all : List Name) (nm : Name) (ha : nm ∉ all) (hd : ¬ DunderName nm)
    (hn : ns nm ≠ none) (hne : ns nm ≠ w.main nm) :
    ¬ ImportStar (some all) ns w.main (reloadx exec nameOf mainV (.obj id) w).2.main := by
  obtain ⟨w', h1, h2, -⟩ := C73_object exec nameOf mainV id w ns hs he
  rw [h1]
  intro h
  have h := (h nm).2 fun hx => ha hx.1
  obtain ⟨v, hv⟩ := Option.ne_none_iff_exists'.1 hn
  rw [h2.1 nm v hv hd, ← hv] at h
  exact hne h

/-- **C77**, the injected name leaks: reloading keeps the old namespace, so if the module's code does not mention `my`,
the first `reloadx` of the object leaves the user's own variable `my` of `__main__` alone, and the second one overwrites
it with the module `__main__`. -/
theorem C77_my_overwritten_refuted (id : ℕ) (w w1 w2 : World V) (hs : w.sysmod (nameOf id) = some id)
    (hmy : ∀ ns, (exec (nameOf id) ns).2 "my".toList = ns "my".toList) (h0 : w.mods id "my".toList = none)
    (r1 : reloadx exec nameOf mainV (.obj id) w = (.ok id, w1)) (r2 : reloadx exec nameOf mainV (.obj id) w1 = (.ok id, w2)) :
    w1.main "my".toList = w.main "my".toList ∧ w2.main "my".toList = some mainV := by
  have ex : ∀ (u u' : World V), u.sysmod (nameOf id) = some id → reloadx exec nameOf mainV (.obj id) u = (.ok id, u') →
      ∃ ns, exec (nameOf id) (u.mods id) = (.ok (), ns) := by
    intro u u' hu h
    rcases he : exec (nameOf id) (u.mods id) with ⟨r, ns⟩
    cases r with
    | ok x => exact ⟨ns, rfl⟩
    | error e => unfold reloadx at h; simp [hu, he] at h
  have nd : ¬ DunderName "my".toList := by
    rw [← isDunder_iff]; decide
  obtain ⟨ns, he⟩ := ex w w1 hs r1
  obtain ⟨w', h1, h2, h3, h4⟩ := C73_object exec nameOf mainV id w ns hs he
  rw [r1] at h1
  obtain rfl : w1 = w' := by cases h1; rfl
  have hn : ns "my".toList = none := by have := hmy (w.mods id); rw [he] at this; exact this.trans h0
  have hs1 : w1.sysmod (nameOf id) = some id := by rw [h4]; exact hs
  obtain ⟨ns1, he1⟩ := ex w1 w2 hs1 r2
  obtain ⟨w'', k1, k2, -⟩ := C73_object exec nameOf mainV id w1 ns1 hs1 he1
  rw [r2] at k1
  obtain rfl : w2 = w'' := by cases k1; rfl
  refine ⟨h2.2.1 _ (.inr hn), k2.1 _ _ ?_ nd⟩
  have := hmy (w1.mods id)
  rw [he1] at this
  exact this.trans (h2.2.2.1 hn)

end

/-! ### A concrete module

Module 0, named `m`, whose source is `x = 7; _p = 8; __version__ = 9`. -/

namespace ReloadxEx

def exec : Exec ℕ := fun _ ns => (.ok (), ((ns.set ['x'] 7).set ['_', 'p'] 8).set ['_', '_', 'v', '_', '_'] 9)

def w : World ℕ where
  sysmod := fun k => if k = ['m'] then some 0 else none
  mods := fun _ _ => none
  main := fun k => if k = ['m', 'y'] then some 1 else if k = ['z'] then some 2 else none
  next := 1

def r1 := reloadx exec (fun _ => ['m']) 100 (.obj 0) w
def r2 := reloadx exec (fun _ => ['m']) 100 (.obj 0) r1.2

example : r1.1 = .ok 0 ∧ r1.2.main ['x'] = some 7 ∧ r1.2.main ['_', 'p'] = some 8 ∧
    r1.2.main ['_', '_', 'v', '_', '_'] = none ∧ r1.2.main ['z'] = some 2 ∧ r1.2.main ['m', 'y'] = some 1 ∧
    r1.2.mods 0 ['m', 'y'] = some 100 ∧ r2.1 = .ok 0 ∧ r2.2.main ['m', 'y'] = some 100 := by decide

example : (reloadx exec (fun _ => ['m']) 100 (.name ['m']) w).1 = .ok 1 ∧
    (reloadx exec (fun _ => ['m']) 100 (.obj 0) (reloadx exec (fun _ => ['m']) 100 (.name ['m']) w).2).1 =
      .error .importError := by decide

end ReloadxEx

end Npplus
