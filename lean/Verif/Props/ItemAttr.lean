import Verif.Spec.ItemAttr
import Mathlib.Tactic

/-!
# C50–C54: itemattr.py
-/

set_option linter.unusedSectionVars false
namespace Npplus
open Npplus.ItemAttr Npplus.Spec

variable {S V A : Type}

theorem keyOf_name2key (n : Name) : KeyOf n (name2key n) := by
  unfold KeyOf name2key
  rcases List.eq_nil_or_concat n with rfl | ⟨l, b, rfl⟩
  · right; simp
  · simp only [List.concat_eq_append, List.getLast?_append, List.getLast?_singleton]
    by_cases hb : b = '_'
    · left; simp [hb]
    · right; simp [hb]

theorem keyOf_unique {n k k' : Name} (h : KeyOf n k) (h' : KeyOf n k') : k = k' := by
  rcases h with h | ⟨h, h2⟩ <;> rcases h' with h' | ⟨h', h2'⟩
  · rw [h] at h'; simpa using h'
  · exact absurd ⟨_, h⟩ h2'
  · exact absurd ⟨_, h'⟩ h2
  · rw [← h, ← h']

theorem name2key_eq {n k : Name} (h : KeyOf n k) : name2key n = k := keyOf_unique (keyOf_name2key n) h

theorem name2key_plain {n : Name} (h : ¬ ∃ l, n = l ++ ['_']) : name2key n = n := name2key_eq (.inr ⟨rfl, h⟩)

theorem name2key_escape (n : Name) : name2key (n ++ ['_']) = n := name2key_eq (.inl rfl)

/-! ### dict refines maps -/

theorem dget_content (d : List (Key × V)) (k : Key) :
    dget d k = match content d k with | some v => .ok v | none => .error .keyError := by
  induction d with
  | nil => rfl
  | cons p d ih =>
    obtain ⟨k', v⟩ := p
    unfold dget content
    by_cases h : k' = k
    · simp [h]
    · rw [if_neg h, ih]; simp [content, h]

theorem content_cons (k' : Key) (v : V) (d : List (Key × V)) (k : Key) :
    content ((k', v) :: d) k = if k' = k then some v else content d k := by
  unfold content
  by_cases h : k' = k
  · simp [h]
  · simp [h]

theorem content_dset (d : List (Key × V)) (k : Key) (v : V) :
    content (dset d k v) = Function.update (content d) k (some v) := by
  funext j
  induction d with
  | nil => by_cases h : j = k
           · subst h; simp [dset, content_cons]
           · simp [dset, content_cons, h, Ne.symm h]
  | cons p d ih =>
    obtain ⟨k', v'⟩ := p
    unfold dset
    by_cases h : k' = k
    · subst h; rw [if_pos rfl, content_cons]
      by_cases hj : k' = j
      · subst hj; simp
      · rw [if_neg hj, Function.update_of_ne (Ne.symm hj), content_cons, if_neg hj]
    · rw [if_neg h, content_cons, ih]
      by_cases hj : k' = j
      · subst hj; rw [if_pos rfl, Function.update_of_ne h, content_cons, if_pos rfl]
      · rw [if_neg hj]
        by_cases hk : j = k
        · subst hk; simp
        · rw [Function.update_of_ne hk, Function.update_of_ne hk, content_cons, if_neg hj]

theorem content_none (d : List (Key × V)) (k : Key) : content d k = none ↔ k ∉ d.map Prod.fst := by
  induction d with
  | nil => simp [content]
  | cons p d ih =>
    obtain ⟨k', v⟩ := p
    rw [content_cons]
    by_cases h : k' = k
    · simp [h]
    · simp only [if_neg h, ih, List.map_cons, List.mem_cons, not_or]
      exact ⟨fun hh => ⟨fun e => h e.symm, hh⟩, fun hh => hh.2⟩

theorem ddel_content {d : List (Key × V)} (hd : (d.map Prod.fst).Nodup) (k : Key) :
    match content d k with
    | none => ddel d k = .error .keyError
    | some _ => ∃ d', ddel d k = .ok d' ∧ content d' = Function.update (content d) k none ∧
        (d'.map Prod.fst).Sublist (d.map Prod.fst) := by
  induction d with
  | nil => rfl
  | cons p d ih =>
    obtain ⟨k', v⟩ := p
    rw [List.map_cons, List.nodup_cons] at hd
    have ih := ih hd.2
    rw [content_cons]
    by_cases h : k' = k
    · subst h
      rw [if_pos rfl]
      refine ⟨d, by simp [ddel], ?_, by simp⟩
      funext j
      by_cases hj : j = k'
      · subst hj; rw [Function.update_self]; exact (content_none _ _).2 hd.1
      · rw [Function.update_of_ne hj, content_cons, if_neg (Ne.symm hj)]
    · rw [if_neg h]
      cases hc : content d k with
      | none => rw [hc] at ih; simp only at ih ⊢; simp [ddel, h, ih, Except.map]
      | some w =>
        rw [hc] at ih
        obtain ⟨d', h1, h2, h3⟩ := ih
        refine ⟨(k', v) :: d', by simp [ddel, h, h1, Except.map], ?_, by simpa using h3⟩
        funext j
        rw [content_cons, h2]
        by_cases hj : k' = j
        · subst hj; rw [if_pos rfl, Function.update_of_ne h, content_cons, if_pos rfl]
        · rw [if_neg hj]
          by_cases hk : j = k
          · subst hk; simp
          · rw [Function.update_of_ne hk, Function.update_of_ne hk, content_cons, if_neg hj]

theorem dset_keys (d : List (Key × V)) (k : Key) (v : V) :
    (dset d k v).map Prod.fst = if k ∈ d.map Prod.fst then d.map Prod.fst else d.map Prod.fst ++ [k] := by
  induction d with
  | nil => simp [dset]
  | cons p d ih =>
    obtain ⟨k', v'⟩ := p
    unfold dset
    by_cases h : k' = k
    · simp [h]
    · rw [if_neg h, List.map_cons, ih]
      by_cases hk : k ∈ d.map Prod.fst
      · rw [if_pos hk, if_pos (by rw [List.map_cons]; exact List.mem_cons_of_mem _ hk), List.map_cons]
      · rw [if_neg hk, if_neg (by rw [List.map_cons, List.mem_cons, not_or]; exact ⟨fun e => h e.symm, hk⟩)]
        simp

theorem dset_nodup {d : List (Key × V)} (hd : (d.map Prod.fst).Nodup) (k : Key) (v : V) :
    ((dset d k v).map Prod.fst).Nodup := by
  rw [dset_keys]
  split_ifs with h
  · exact hd
  · rw [List.nodup_append]
    exact ⟨hd, by simp, by intro a ha b hb; simp at hb; rintro rfl; exact h (hb ▸ ha)⟩

/-- An attribute read in this operation, if any, is not found on the class. -/
def ReadsItem (cls : Name → Option A) : Op V → Prop
  | .getattr n => cls n = none
  | _ => True

theorem adict_step (M : Mapping S V) (cls : Name → Option A) (s : S) (o : Op V) (ho : ReadsItem cls o) :
    step M (adictMethods M cls) s o = step M (adictMethods M cls) s (asItem name2key o) := by
  cases o <;> simp only [asItem]
  · rename_i n
    have hn : cls n = none := ho
    simp [step, adictMethods, objGet, hn]
  · rfl
  · rfl

theorem dict_step (T : AttrMethods (List (Key × V)) V A) (key : Name → Name) (d : List (Key × V))
    (hd : (d.map Prod.fst).Nodup) (o : Op V) :
    let r := step (dictMapping V) T d (asItem key o)
    (content r.1, r.2) = PMap.step (content d) (asItem key o) ∧ (r.1.map Prod.fst).Nodup := by
  have hg : ∀ k, let r := step (dictMapping V) T d (.getitem k)
      (content r.1, r.2) = PMap.step (content d) (.getitem k) ∧ (r.1.map Prod.fst).Nodup := by
    intro k
    refine ⟨?_, hd⟩
    simp only [step, dictMapping, dget_content, PMap.step]; cases content d k <;> rfl
  have hs : ∀ k v, let r := step (dictMapping V) T d (.setitem k v)
      (content r.1, r.2) = PMap.step (content d) (.setitem k v) ∧ (r.1.map Prod.fst).Nodup := by
    intro k v
    refine ⟨?_, dset_nodup hd _ _⟩
    simp only [step, dictMapping, content_dset, PMap.step]
  have hde : ∀ k, let r := step (dictMapping V) T d (.delitem k)
      (content r.1, r.2) = PMap.step (content d) (.delitem k) ∧ (r.1.map Prod.fst).Nodup := by
    intro k
    have := ddel_content hd k
    simp only [step, dictMapping, PMap.step]
    cases hc : content d k with
    | none => rw [hc] at this; simp only at this; rw [this]; exact ⟨rfl, hd⟩
    | some w =>
      rw [hc] at this
      obtain ⟨d', h1, h2, h3⟩ := this
      rw [h1]
      exact ⟨by rw [h2], h3.nodup hd⟩
  cases o
  · exact hg _
  · exact hs _ _
  · exact hde _
  · exact hg _
  · exact hs _ _
  · exact hde _

theorem adict_run (cls : Name → Option A) (ops : List (Op V)) : ∀ (d : List (Key × V)),
    (d.map Prod.fst).Nodup → (∀ o ∈ ops, ReadsItem cls o) →
    let r := run (dictMapping V) (adictMethods (dictMapping V) cls) d ops
    (content r.1, r.2) = PMap.run (content d) (ops.map (asItem name2key)) ∧ (r.1.map Prod.fst).Nodup := by
  induction ops with
  | nil => intro d hd _; exact ⟨rfl, hd⟩
  | cons o ops ih =>
    intro d hd hops
    have h1 := dict_step (adictMethods (dictMapping V) cls) name2key d hd o
    rw [← adict_step _ _ _ _ (hops o (by simp))] at h1
    have h2 := ih _ h1.2 (fun o' ho' => hops o' (by simp [ho']))
    simp only [run, List.map_cons, PMap.run]
    rw [← h1.1, ← h2.1]
    exact ⟨rfl, h2.2⟩

/-- **C50** (histories).  Any sequence of attribute and item operations on an ADict whose attribute names have no
trailing underscore (and, when read, are not class attributes) has the results and the effect of the same
sequence with `x.name` replaced by `x['name']` on a mathematical map: reads see the last write, a missing name is
a KeyError, `del` removes, other items are untouched. -/
theorem C50_adict_history (cls : Name → Option A) (d : List (Key × V)) (hd : (d.map Prod.fst).Nodup)
    (ops : List (Op V)) (hops : ∀ o ∈ ops, ReadsItem cls o)
    (hn : ∀ o ∈ ops, match o with
      | .getattr n | .setattr n _ | .delattr n => ¬ ∃ l, n = l ++ ['_']
      | _ => True) :
    let r := run (dictMapping V) (adictMethods (dictMapping V) cls) d ops
    (content r.1, r.2) = PMap.run (content d) (ops.map (asItem id)) ∧ (r.1.map Prod.fst).Nodup := by
  have h := adict_run cls ops d hd hops
  have he : ops.map (asItem name2key) = ops.map (asItem id) := by
    apply List.map_congr_left
    intro o ho
    have := hn o ho
    cases o <;> simp only [asItem, id] <;> rw [name2key_plain this]
  rw [he] at h
  exact h

/-- **C50** (single operations): for a name that is not a class attribute and does not end in an underscore, the
attribute operations are the item operations. -/
theorem C50_adict_ops (cls : Name → Option A) (d : List (Key × V)) (n : Name) (hn : ¬ ∃ l, n = l ++ ['_']) (v : V) :
    let T := adictMethods (dictMapping V) cls
    (cls n = none → T.get d n = (dget d (.str n)).map .item) ∧
    T.set d n v = .ok (dset d (.str n) v) ∧ T.del d n = ddel d (.str n) ∧
    (cls n = none → (.str n) ∉ d.map Prod.fst → T.get d n = .error .keyError) := by
  have hk := name2key_plain hn
  refine ⟨?_, ?_, ?_, ?_⟩
  · intro hc; simp [adictMethods, objGet, hc, dictMapping, hk]
  · simp [adictMethods, dictMapping, hk]
  · simp [adictMethods, dictMapping, hk]
  · intro hc hmem
    simp only [adictMethods, objGet, hc, dictMapping, hk, dget_content]
    rw [(content_none _ _).2 hmem]; rfl

/-- A concrete history: set, overwrite through the item, read, delete, read again. -/
example : (run (dictMapping ℕ) (adictMethods (dictMapping ℕ) (fun n => if n = ['k'] then some () else none)) []
    [.setattr ['a'] 1, .setattr ['b'] 5, .setitem (.str ['a']) 2, .getattr ['a'], .getattr ['k'], .delattr ['a'],
      .getattr ['a'], .getattr ['b']]).2 =
    [.ok .unit, .ok .unit, .ok .unit, .ok (.item 2), .ok (.attr ()), .ok .unit, .error .keyError, .ok (.item 5)] := by
  rfl

/-- **C51** (partial: the second half of the claim is false, see `C51_dunder_refuted`).  `x.name_` is `x['name']`,
exactly one underscore being removed, for every operation sequence: each attribute name stands for the item given by
`KeyOf`.  For reading, the class must not have the attribute `name_`. -/
theorem C51_escape_partial (cls : Name → Option A) (d : List (Key × V)) (n : Name) (v : V) :
    let T := adictMethods (dictMapping V) cls
    (cls (n ++ ['_']) = none → T.get d (n ++ ['_']) = (dget d (.str n)).map .item) ∧
    T.set d (n ++ ['_']) v = .ok (dset d (.str n) v) ∧ T.del d (n ++ ['_']) = ddel d (.str n) := by
  have hk := name2key_escape n
  exact ⟨fun hc => by simp [adictMethods, objGet, hc, dictMapping, hk], by simp [adictMethods, dictMapping, hk],
    by simp [adictMethods, dictMapping, hk]⟩

/-- **C51** (histories). Every sequence of operations on an ADict acts as item operations on a map, with the key of
each attribute name being *the* key given by the underscore convention. -/
theorem C51_history_partial (cls : Name → Option A) (key : Name → Name) (hkey : ∀ n, KeyOf n (key n))
    (d : List (Key × V)) (hd : (d.map Prod.fst).Nodup) (ops : List (Op V)) (hops : ∀ o ∈ ops, ReadsItem cls o) :
    let r := run (dictMapping V) (adictMethods (dictMapping V) cls) d ops
    (content r.1, r.2) = PMap.run (content d) (ops.map (asItem key)) ∧ (r.1.map Prod.fst).Nodup := by
  have : key = name2key := funext fun n => keyOf_unique (hkey n) (keyOf_name2key n)
  subst this
  exact adict_run cls ops d hd hops

/-- The attributes of `dict` in Python 3 (dunder names of `object` included): all that end in an underscore start
with two, so that `x.name_` never collides with them unless `name` itself starts with two underscores. -/
def dictAttrs : List Name := ["__class__", "__class_getitem__", "__contains__", "__delattr__", "__delitem__", "__dir__",
  "__doc__", "__eq__", "__format__", "__ge__", "__getattribute__", "__getitem__", "__getstate__", "__gt__", "__hash__",
  "__init__", "__init_subclass__", "__ior__", "__iter__", "__le__", "__len__", "__lt__", "__module__", "__ne__", "__new__",
  "__or__", "__reduce__", "__reduce_ex__", "__repr__", "__reversed__", "__ror__", "__setattr__", "__setitem__",
  "__sizeof__", "__slots__", "__str__", "__subclasshook__", "clear", "copy", "fromkeys", "get", "items", "keys", "pop", "popitem",
  "setdefault", "update", "values"].map String.toList

example : ∀ n ∈ dictAttrs, n.getLast? = some '_' → dunder n = true := by decide +kernel

/-- **C51**, for the actual class: every key not starting with two underscores can be read as `x.key_`. -/
theorem C51_reserved_names (cls : Name → Option A) (hcls : ∀ n, cls n ≠ none → n.getLast? = some '_' → dunder n = true)
    (d : List (Key × V)) (n : Name) (hn : dunder (n ++ ['_']) = false) :
    (adictMethods (dictMapping V) cls).get d (n ++ ['_']) = (dget d (.str n)).map .item := by
  have hc : cls (n ++ ['_']) = none := by
    by_contra hc
    have := hcls _ hc (by simp)
    rw [hn] at this; cases this
  simp [adictMethods, objGet, hc, dictMapping, name2key_escape]

example : (adictMethods (dictMapping ℕ) (fun n => if n ∈ dictAttrs then some n else none)).get
    [(.str "keys".toList, 7)] "keys_".toList = .ok (.item 7) := by rfl

/-- **C51 refuted** for names beginning with a double underscore: the docstring says that their trailing underscore
is *not* removed, but `x.__n_ = v` stores the item `'__n'`, and there is no item `'__n_'`. -/
theorem C51_dunder_refuted (cls : Name → Option A) (n : Name) (v : V) :
    let T := adictMethods (dictMapping V) cls
    T.set [] ('_' :: '_' :: (n ++ ['_'])) v = .ok [(.str ('_' :: '_' :: n), v)] ∧
    dget [(Key.str ('_' :: '_' :: n), v)] (.str ('_' :: '_' :: (n ++ ['_']))) = .error .keyError := by
  constructor
  · have := (C51_escape_partial cls ([] : List (Key × V)) ('_' :: '_' :: n) v).2.1
    simpa [dset] using this
  · simp [dget]

/-! ### C52 -/

/-- Every attribute named in this operation is neither a dunder name nor (when read) a class attribute. -/
def PlainOp (attrs : List Name) : Op V → Prop
  | .getattr n => dunder n = false ∧ n ∉ attrs
  | .setattr n _ | .delattr n => dunder n = false
  | _ => True

/-- **C52**.  In a decorated class — any mapping class, with any item methods — every sequence of operations on names
which are not `__` names and, when read, not class attributes, is the same sequence of item operations. -/
theorem C52_items (M : Mapping S V) (cls : Name → Option A) (attrs : List Name) (key : Name → Name)
    (hkey : ∀ n, KeyOf n (key n)) (s : S) (ops : List (Op V)) (hops : ∀ o ∈ ops, PlainOp attrs o) :
    run M (iaaMethods M cls attrs) s ops = run M (iaaMethods M cls attrs) s (ops.map (asItem key)) := by
  have : key = name2key := funext fun n => keyOf_unique (hkey n) (keyOf_name2key n)
  subst this
  induction ops generalizing s with
  | nil => rfl
  | cons o ops ih =>
    have hs : step M (iaaMethods M cls attrs) s o = step M (iaaMethods M cls attrs) s (asItem name2key o) := by
      have ho := hops o (by simp)
      cases o with
      | getattr n => obtain ⟨h1, h2⟩ := ho; simp [step, iaaMethods, asItem, h1, h2]
      | setattr n v => have h1 : dunder n = false := ho; simp [step, iaaMethods, asItem, h1]
      | delattr n => have h1 : dunder n = false := ho; simp [step, iaaMethods, asItem, h1]
      | _ => rfl
    simp only [run, List.map_cons, hs]
    rw [ih _ (fun o' ho' => hops o' (by simp [ho']))]

/-- **C52**: class attributes and `__` names are read as ordinary attributes, whatever the items are. -/
theorem C52_class_attrs (M : Mapping S V) (cls : Name → Option A) (attrs : List Name) (s : S) (n : Name)
    (hn : dunder n = true ∨ n ∈ attrs) :
    (iaaMethods M cls attrs).get s n = match cls n with | some a => .ok (.attr a) | none => .error .attributeError := by
  have : (dunder n || attrs.contains n) = true := by simpa using hn
  simp only [iaaMethods, this, if_true, objGet]
  cases cls n <;> rfl

/-- **C52**: setting or deleting a `__` name raises ValueError and changes nothing. -/
theorem C52_dunder_error (M : Mapping S V) (cls : Name → Option A) (attrs : List Name) (s : S) (n : Name) (v : V)
    (hn : ∃ l, n = '_' :: '_' :: l) :
    step M (iaaMethods M cls attrs) s (.setattr n v) = (s, .error .valueError) ∧
    step M (iaaMethods M cls attrs) s (.delattr n) = (s, .error .valueError) := by
  obtain ⟨l, rfl⟩ := hn
  have h : dunder ('_' :: '_' :: l) = true := by simp [dunder, List.isPrefixOf]
  simp [step, iaaMethods, h]

theorem dunder_iff (n : Name) : dunder n = true ↔ ∃ l, n = '_' :: '_' :: l := by
  unfold dunder
  rw [List.isPrefixOf_iff_prefix]
  constructor
  · rintro ⟨l, rfl⟩; exact ⟨l, rfl⟩
  · rintro ⟨l, rfl⟩; exact ⟨l, rfl⟩

/-- **C52**: the decorator itself. `@items_are_attrs` on a class returns that class with the default methods, and the
names treated as class attributes are exactly those listed by `dir` which do not start with `__`. -/
theorem C52_decorator {F : Type} (iaa c : PyClass F) (hc : c.decoratorArgument = false)
    (g st dl : F) (hg : iaa.ownGet = some g) (hs : iaa.ownSet = some st) (hd : iaa.ownDelete = some dl) :
    ∃ c' attrs, itemsAreAttrs (some c) iaa = .ok (.cls c') ∧ c'.getattribute = some g ∧ c'.setattr = some st ∧
      c'.delattr = some dl ∧ c'.iaaAttrs = some attrs ∧ (∀ n, n ∈ attrs ↔ n ∈ c.dir ∧ ¬ ∃ l, n = '_' :: '_' :: l) ∧
      c'.dir = c.dir := by
  refine ⟨{ c with
      iaaAttrs := some (c.dir.filter (fun n => !dunder n))
      getattribute := some g
      setattr := some st
      delattr := some dl }, c.dir.filter (fun n => !dunder n), ?_, rfl, rfl, rfl, rfl, ?_, rfl⟩
  · simp [itemsAreAttrs, hc, hg, hs, hd, ownLookup, bind, Except.bind, pure, Except.pure]
  · intro n
    rw [List.mem_filter, ← dunder_iff]
    simp

example : (run (dictMapping ℕ) (iaaMethods (dictMapping ℕ) (fun n => if n = "keys".toList then some () else none)
    ["keys".toList]) [] [.setattr "a".toList 1, .getattr "a_".toList, .getattr "keys".toList, .setattr "__x".toList 4,
      .getattr "__x".toList, .getattr "z".toList]) =
    ([(.str "a".toList, 1)], [.ok .unit, .ok (.item 1), .ok (.attr ()), .error .valueError, .error .attributeError,
      .error .keyError]) := by rfl

/-! ### C53 -/

/-- **C53** (what does hold): with the keyword, `items_are_attrs(methods=M)` applied to a class installs the `get`,
`set`, `delete` defined in the body of `M`. -/
theorem C53_keyword_partial {F : Type} (m c : PyClass F) (hc : c.decoratorArgument = false)
    (g st dl : F) (hg : m.ownGet = some g) (hs : m.ownSet = some st) (hd : m.ownDelete = some dl) :
    itemsAreAttrs none m = .ok (.part m) ∧
    ∃ c', itemsAreAttrs (some c) m = .ok (.cls c') ∧ c'.getattribute = some g ∧ c'.setattr = some st ∧ c'.delattr = some dl := by
  refine ⟨rfl, ?_⟩
  obtain ⟨c', _, h1, h2, h3, h4, _⟩ := C52_decorator m c hc g st dl hg hs hd
  exact ⟨c', h1, h2, h3, h4⟩

/-- **C53 refuted**: `@items_are_attrs(MyAttrMethods)` ignores its argument; for every `MyAttrMethods` the result is
that of plain `@items_are_attrs`. -/
theorem C53_argument_ignored_refuted {F : Type} (dflt my c : PyClass F) (hmy : my.decoratorArgument = true) :
    decorateWith dflt (some my) c = itemsAreAttrs (some c) dflt := by
  simp [decorateWith, itemsAreAttrs, hmy, bind, Except.bind, pure, Except.pure]

/-- … so the methods of `MyAttrMethods` are not the installed ones whenever they differ from the defaults. -/
theorem C53_refuted {F : Type} (dflt my c : PyClass F) (hmy : my.decoratorArgument = true) (hc : c.decoratorArgument = false)
    (g st dl g' : F) (hg : dflt.ownGet = some g) (hs : dflt.ownSet = some st) (hd : dflt.ownDelete = some dl)
    (_hg' : my.ownGet = some g') (hne : g ≠ g') :
    ∃ c', decorateWith dflt (some my) c = .ok (.cls c') ∧ c'.getattribute ≠ some g' := by
  rw [C53_argument_ignored_refuted _ _ _ hmy]
  obtain ⟨c', _, h1, h2, _⟩ := C52_decorator dflt c hc g st dl hg hs hd
  exact ⟨c', h1, by rw [h2]; simpa using hne⟩

/-- **C53**: a methods class which inherits (does not itself define) one of the three is a KeyError. -/
theorem C53_inherited_fails {F : Type} (m c : PyClass F) (hc : c.decoratorArgument = false)
    (h : m.ownGet = none ∨ m.ownSet = none ∨ m.ownDelete = none) :
    itemsAreAttrs (some c) m = .error .keyError := by
  unfold itemsAreAttrs
  simp only [hc, Bool.false_eq_true, if_false, bind, Except.bind, ownLookup]
  rcases h with h | h | h
  · rw [h]
  · rw [h]; cases m.ownGet <;> rfl
  · rw [h]; cases m.ownGet <;> cases m.ownSet <;> rfl

/-! ### C54 -/

mutual
theorem Spec.Holds.mono {V : Type} {lo lo' : ℕ} {h h' : Heap V} (hl : lo' ≤ lo) (hh : ∀ r o, lo ≤ r → h[r]? = some o → h'[r]? = some o) :
    ∀ {t : DTree V} {v : HVal V}, Holds lo h v t → Holds lo' h' v t
  | .leaf a, v, H => by simpa [Holds] using H
  | .dict c its, v, H => by
    simp only [Holds] at H ⊢
    obtain ⟨r, l, h1, h2, h3, h4⟩ := H
    exact ⟨r, l, h1, by omega, hh _ _ h2 h3, Spec.HoldsItems.mono hl hh h4⟩
theorem Spec.HoldsItems.mono {V : Type} {lo lo' : ℕ} {h h' : Heap V} (hl : lo' ≤ lo) (hh : ∀ r o, lo ≤ r → h[r]? = some o → h'[r]? = some o) :
    ∀ {t : DItems V} {l : List (Key × HVal V)}, HoldsItems lo h l t → HoldsItems lo' h' l t
  | .nil, l, H => by simpa [HoldsItems] using H
  | .cons k t r, l, H => by
    simp only [HoldsItems] at H ⊢
    obtain ⟨v, l', h1, h2, h3⟩ := H
    exact ⟨v, l', h1, Spec.Holds.mono hl hh h2, Spec.HoldsItems.mono hl hh h3⟩
end

theorem holdsItems_keys {V : Type} {lo : ℕ} {h : Heap V} : ∀ {its : DItems V} {l : List (Key × HVal V)},
    HoldsItems lo h l its → l.map Prod.fst = its.keys
  | .nil, l, H => by simp only [HoldsItems] at H; simp [H, DItems.keys]
  | .cons k t r, l, H => by
    simp only [HoldsItems] at H
    obtain ⟨v, l', h1, _, h3⟩ := H
    simp [h1, DItems.keys, holdsItems_keys h3]

theorem dset_mid {W : Type} (p : List (Key × W)) (k : Key) (v w : W) (q : List (Key × W)) (hk : k ∉ p.map Prod.fst) :
    dset (p ++ (k, v) :: q) k w = p ++ (k, w) :: q := by
  induction p with
  | nil => simp [dset]
  | cons a p ih =>
    obtain ⟨k', v'⟩ := a
    rw [List.map_cons, List.mem_cons, not_or] at hk
    simp only [List.cons_append, dset]
    rw [if_neg (fun e => hk.1 e.symm), ih hk.2]

/-- `h'` extends `h`: every existing object is unchanged. -/
def Extends {V : Type} (h h' : Heap V) : Prop := ∀ (r : ℕ) o, h[r]? = some o → h'[r]? = some o

mutual
theorem redict_tree {V : Type} (cls : DCls) : ∀ (t : DTree V) (c : DCls) (its : DItems V), t = .dict c its → t.WF →
    ∀ (fuel : ℕ), t.depth ≤ fuel → ∀ (h : Heap V) (r : ℕ), Holds 0 h (.ref r) t →
    ∃ h' r', redictCls cls fuel h r = some (h', r') ∧ Extends h h' ∧ h.length ≤ h'.length ∧
      Holds h.length h' (.ref r') (t.conv cls)
  | .leaf _, c, its, e, _, _, _, _, _, _ => by cases e
  | .dict c its, _, _, _, wf, 0, hf, _, _, _ => by simp [DTree.depth] at hf
  | .dict c its, _, _, _, wf, fuel + 1, hf, h, r, H => by
    simp only [Holds] at H
    obtain ⟨r0, l, e, _, h3, h4⟩ := H
    cases e
    simp only [DTree.WF] at wf
    simp only [DTree.depth] at hf
    obtain ⟨h', e1, e2, e3, l', e4, e5⟩ := redict_items cls its wf.2 fuel (by omega) h.length h (h ++ [(cls, l)])
      [] l (by simpa [holdsItems_keys h4] using wf.1) h4
      (fun q o hq => by rw [List.getElem?_append_left (List.getElem?_eq_some_iff.1 hq).1]; exact hq) (le_refl _)
      cls (by simp)
    refine ⟨h', h.length, ?_, ?_, ?_, ?_⟩
    · simp [redictCls, h3, e1]
    · intro q o hq
      have hlt := (List.getElem?_eq_some_iff.1 hq).1
      apply e2 q o (by omega)
      rw [List.getElem?_append_left hlt]; exact hq
    · simp at e3; omega
    · simp only [DTree.conv, Holds]
      exact ⟨_, _, rfl, le_refl _, e4, Spec.HoldsItems.mono (by omega) (fun _ _ _ hr => hr) e5⟩
theorem redict_items {V : Type} (cls : DCls) : ∀ (its : DItems V), its.WF →
    ∀ (fuel : ℕ), its.depth ≤ fuel → ∀ (r' : ℕ) (hb h : Heap V) (pre l : List (Key × HVal V)),
    ((pre ++ l).map Prod.fst).Nodup → HoldsItems 0 hb l its → Extends hb h → hb.length ≤ r' → ∀ c,
    h[r']? = some (c, pre ++ l) →
    ∃ h', redictLoop (redictCls cls fuel) r' h l = some h' ∧ (∀ q o, q ≠ r' → h[q]? = some o → h'[q]? = some o) ∧
      h.length ≤ h'.length ∧ ∃ l', h'[r']? = some (c, pre ++ l') ∧ HoldsItems (r' + 1) h' l' (its.conv cls)
  | .nil, wf, fuel, hf, r', hb, h, pre, l, hnd, H, hext, hle, c, hr => by
    simp only [HoldsItems] at H
    subst H
    exact ⟨h, rfl, fun _ _ _ hq => hq, le_refl _, [], hr, by simp [HoldsItems, DItems.conv]⟩
  | .cons k (.leaf a) rest, wf, fuel, hf, r', hb, h, pre, l, hnd, H, hext, hle, c, hr => by
    simp only [HoldsItems, Holds] at H
    obtain ⟨v, l0, rfl, rfl, H0⟩ := H
    simp only [DItems.WF] at wf
    simp only [DItems.depth] at hf
    obtain ⟨h', e1, e2, e3, l', e4, e5⟩ := redict_items cls rest wf.2 fuel (by omega) r' hb h (pre ++ [(k, .leaf a)]) l0
      (by simpa using hnd) H0 hext hle c (by simpa using hr)
    refine ⟨h', by simpa [redictLoop] using e1, e2, e3, (k, .leaf a) :: l', by simpa using e4, ?_⟩
    simp only [DItems.conv, HoldsItems]
    exact ⟨_, _, rfl, by simp [DTree.conv, Holds], e5⟩
  | .cons k (.dict c0 its0) rest, wf, fuel, hf, r', hb, h, pre, l, hnd, H, hext, hle, c, hr => by
    simp only [HoldsItems] at H
    obtain ⟨v, l0, rfl, Hv, H0⟩ := H
    simp only [DItems.WF] at wf
    simp only [DItems.depth] at hf
    obtain ⟨q, lq, rfl, _, hq, hlq⟩ := (by simpa only [Holds] using Hv :
      ∃ r l, v = .ref r ∧ 0 ≤ r ∧ hb[r]? = some (c0, l) ∧ HoldsItems 0 hb l its0)
    have hlt := (List.getElem?_eq_some_iff.1 hr).1
    obtain ⟨h2, q', f1, f2, f3, f4⟩ := redict_tree cls (.dict c0 its0) c0 its0 rfl wf.1 fuel (by omega) h q
      (Spec.Holds.mono (le_refl 0) (fun r o _ hh => hext r o hh) Hv)
    have hr2 := f2 _ _ hr
    have hk : k ∉ pre.map Prod.fst := by
      rw [List.map_append, List.nodup_append] at hnd
      intro hk
      exact hnd.2.2 k hk k (by simp) rfl
    have hset : ∀ p o, p ≠ r' → h2[p]? = some o → (h2.set r' (c, pre ++ (k, .ref q') :: l0))[p]? = some o := by
      intro p o hp hpo
      rw [List.getElem?_set_ne (Ne.symm hp)]; exact hpo
    obtain ⟨h', e1, e2, e3, l', e4, e5⟩ := redict_items cls rest wf.2 fuel (by omega) r' hb
      (h2.set r' (c, pre ++ (k, .ref q') :: l0)) (pre ++ [(k, .ref q')]) l0
      (by simpa using hnd) H0 (fun p o hp => by
        have hplt := (List.getElem?_eq_some_iff.1 hp).1
        exact hset p o (by omega) (f2 _ _ (hext _ _ hp))) hle c (by
        rw [List.getElem?_set_self (by omega)]; simp)
    refine ⟨h', ?_, ?_, ?_, (k, .ref q') :: l', by simpa using e4, ?_⟩
    · simp only [redictLoop, f1, hr2]
      rw [dset_mid _ _ _ _ _ hk]
      exact e1
    · intro p o hp hpo
      exact e2 p o hp (hset p o hp (f2 _ _ hpo))
    · rw [List.length_set] at e3; omega
    · simp only [DItems.conv, HoldsItems]
      refine ⟨_, _, rfl, ?_, e5⟩
      exact Spec.Holds.mono (lo := h.length) (by omega)
        (fun p o hp hpo => e2 p o (by omega) (hset p o (by omega) hpo)) f4
end

/-- **C54**. For a finitely nested dict `t` (keys distinct at every level) held by the object `r`, `redict` returns a
new object holding `t` with every dict converted to the target class — `cls` if given, else dict for an ADict and
ADict for anything else — with the same keys in the same order and the same other values; all dict objects of the
result are new, and no existing object is changed. Recursion depth is the nesting depth. -/
theorem C54_redict {V : Type} (h : Heap V) (r : ℕ) (c : DCls) (its : DItems V) (wf : (DTree.dict c its).WF)
    (H : Holds 0 h (.ref r) (.dict c its)) (cls : Option DCls) (fuel : ℕ) (hf : (DTree.dict c its).depth ≤ fuel) :
    ∃ h' r', redict fuel h r cls = some (h', r') ∧
      Holds h.length h' (.ref r') ((DTree.dict c its).conv (cls.getD (if c.isADict then .dict else .adict))) ∧
      ∀ (q : ℕ) o, h[q]? = some o → h'[q]? = some o := by
  obtain ⟨h', r', e1, e2, _, e4⟩ := redict_tree (cls.getD (if c.isADict then .dict else .adict)) _ c its rfl wf fuel hf h r H
  simp only [Holds] at H
  obtain ⟨_, l, e, _, h3, _⟩ := H
  cases e
  refine ⟨h', r', ?_, e4, e2⟩
  rw [← e1]
  unfold redict
  rw [h3]
  cases cls <;> rfl

mutual
theorem Spec.DTree.conv_all {V : Type} (c : DCls) : ∀ t : DTree V, (t.conv c).All c
  | .leaf _ => by simp [DTree.conv, DTree.All]
  | .dict _ its => by simp only [DTree.conv, DTree.All]; simpa using Spec.DItems.conv_all c its
theorem Spec.DItems.conv_all {V : Type} (c : DCls) : ∀ t : DItems V, (t.conv c).All c
  | .nil => by simp [DItems.conv, DItems.All]
  | .cons _ t r => by simp only [DItems.conv, DItems.All]; exact ⟨Spec.DTree.conv_all c t, Spec.DItems.conv_all c r⟩
end

mutual
theorem Spec.DTree.conv_conv {V : Type} (c c' : DCls) : ∀ t : DTree V, (t.conv c).conv c' = t.conv c'
  | .leaf _ => by simp [DTree.conv]
  | .dict _ its => by simp only [DTree.conv]; rw [Spec.DItems.conv_conv c c' its]
theorem Spec.DItems.conv_conv {V : Type} (c c' : DCls) : ∀ t : DItems V, (t.conv c).conv c' = t.conv c'
  | .nil => by simp [DItems.conv]
  | .cons _ t r => by simp only [DItems.conv]; rw [Spec.DTree.conv_conv c c' t, Spec.DItems.conv_conv c c' r]
end

mutual
theorem Spec.DTree.conv_of_all {V : Type} (c : DCls) : ∀ t : DTree V, t.All c → t.conv c = t
  | .leaf _, _ => by simp [DTree.conv]
  | .dict _ its, h => by
    simp only [DTree.All] at h
    simp only [DTree.conv]; rw [Spec.DItems.conv_of_all c its h.2, h.1]
theorem Spec.DItems.conv_of_all {V : Type} (c : DCls) : ∀ t : DItems V, t.All c → t.conv c = t
  | .nil, _ => by simp [DItems.conv]
  | .cons _ t r, h => by
    simp only [DItems.All] at h
    simp only [DItems.conv]; rw [Spec.DTree.conv_of_all c t h.1, Spec.DItems.conv_of_all c r h.2]
end

mutual
theorem Spec.DTree.conv_wf {V : Type} (c : DCls) : ∀ t : DTree V, t.WF → (t.conv c).WF
  | .leaf _, _ => by simp [DTree.conv, DTree.WF]
  | .dict _ its, h => by
    simp only [DTree.WF] at h
    simp only [DTree.conv, DTree.WF]
    rw [Spec.DItems.conv_keys c its]
    exact ⟨h.1, Spec.DItems.conv_wf c its h.2⟩
theorem Spec.DItems.conv_wf {V : Type} (c : DCls) : ∀ t : DItems V, t.WF → (t.conv c).WF
  | .nil, _ => by simp [DItems.conv, DItems.WF]
  | .cons _ t r, h => by
    simp only [DItems.WF] at h
    simp only [DItems.conv, DItems.WF]; exact ⟨Spec.DTree.conv_wf c t h.1, Spec.DItems.conv_wf c r h.2⟩
theorem Spec.DItems.conv_keys {V : Type} (c : DCls) : ∀ t : DItems V, (t.conv c).keys = t.keys
  | .nil => by simp [DItems.conv]
  | .cons _ t r => by simp [DItems.conv, DItems.keys, Spec.DItems.conv_keys c r]
end

mutual
theorem Spec.DTree.conv_depth {V : Type} (c : DCls) : ∀ t : DTree V, (t.conv c).depth = t.depth
  | .leaf _ => by simp [DTree.conv]
  | .dict _ its => by simp only [DTree.conv, DTree.depth]; rw [Spec.DItems.conv_depth c its]
theorem Spec.DItems.conv_depth {V : Type} (c : DCls) : ∀ t : DItems V, (t.conv c).depth = t.depth
  | .nil => by simp [DItems.conv]
  | .cons _ t r => by simp only [DItems.conv, DItems.depth]; rw [Spec.DTree.conv_depth c t, Spec.DItems.conv_depth c r]
end

/-- **C54**: the result consists of dicts of the target class only, and redict applied twice to a nested dict
consisting of plain dicts gives a new nested dict equal to it, made of plain dicts. -/
theorem C54_roundtrip {V : Type} (h : Heap V) (r : ℕ) (its : DItems V) (wf : (DTree.dict .dict its).WF)
    (hall : (DTree.dict .dict its).All .dict)
    (H : Holds 0 h (.ref r) (.dict .dict its)) (fuel : ℕ) (hf : (DTree.dict .dict its).depth ≤ fuel) :
    ∃ h1 r1 h2 r2, redict fuel h r none = some (h1, r1) ∧ redict fuel h1 r1 none = some (h2, r2) ∧
      (∃ t1, Holds 0 h1 (.ref r1) t1 ∧ t1.All .adict) ∧
      Holds h1.length h2 (.ref r2) (.dict .dict its) ∧ ∀ (q : ℕ) o, h[q]? = some o → h2[q]? = some o := by
  obtain ⟨h1, r1, a1, a2, a3⟩ := C54_redict h r .dict its wf H none fuel hf
  have a2' : Holds 0 h1 (.ref r1) ((DTree.dict .dict its).conv .adict) :=
    Spec.Holds.mono (Nat.zero_le _) (fun _ _ _ hr => hr) a2
  have w2 := Spec.DTree.conv_wf .adict _ wf
  have d2 := Spec.DTree.conv_depth .adict (DTree.dict .dict its)
  have hall2 := Spec.DTree.conv_all .adict (DTree.dict .dict its)
  have hcc := Spec.DTree.conv_conv .adict .dict (DTree.dict .dict its)
  rw [Spec.DTree.conv_of_all _ _ hall] at hcc
  simp only [DTree.conv] at a2' w2 d2 hcc hall2
  obtain ⟨h2, r2, b1, b2, b3⟩ := C54_redict h1 r1 .adict _ w2 a2' none fuel (by omega)
  refine ⟨h1, r1, h2, r2, a1, b1, ⟨_, a2', hall2⟩, ?_, fun q o hq => b3 _ _ (a3 _ _ hq)⟩
  simpa [DCls.isADict, DTree.conv, hcc] using b2

/-- A two-level dict with a shared sub-dict. -/
example : redict 2 ([(.dict, [(.str ['a'], .ref 1), (.other 3, .leaf 5), (.str ['b'], .ref 1)]),
      (.dict, [(.str ['c'], .leaf 7)])] : Heap ℕ) 0 none =
    some ([(.dict, [(.str ['a'], .ref 1), (.other 3, .leaf 5), (.str ['b'], .ref 1)]),
      (.dict, [(.str ['c'], .leaf 7)]),
      (.adict, [(.str ['a'], .ref 3), (.other 3, .leaf 5), (.str ['b'], .ref 4)]),
      (.adict, [(.str ['c'], .leaf 7)]), (.adict, [(.str ['c'], .leaf 7)])], 2) := by rfl

/-- The hypotheses of C54 are met by that dict. -/
example : let its : DItems ℕ := .cons (.str ['a']) (.dict .dict (.cons (.str ['c']) (.leaf 7) .nil)) (.cons (.other 3) (.leaf 5) .nil)
    (DTree.dict .dict its).WF ∧ Holds 0 [(.dict, [(.str ['a'], .ref 1), (.other 3, .leaf 5)]),
      (.dict, [(.str ['c'], .leaf 7)])] (.ref 0) (.dict .dict its) := by
  simp [DTree.WF, DItems.WF, DItems.keys, Holds, HoldsItems]

end Npplus
