import Verif.Model.Plot
import Mathlib.Data.List.Perm.Basic
import Mathlib.Data.List.Dedup

/-!
# C72, C74, C76: pyplot wrappers, colour cycles and style
-/

set_option linter.unusedSectionVars false
namespace Npplus
open ItemAttr (Name)

/-! ### C72 -/

section
variable {σ Arg Obj K : Type}

/-- **C72**, wrappers: if `plt` has the name, the wrapper changes the state exactly as the original function does with
the same arguments, raises exactly when it does, and returns `None`; otherwise the name is `NotImplemented`. -/
theorem C72_wrapper (plt : Plt σ Arg Obj) (name : Name) :
    (∀ f, plt.fn name = some f → ∃ g, iwrap plt name = .fn g ∧ ∀ a s, (g a s).2 = (f a s).2 ∧
      (∀ o, (f a s).1 = .ok o → (g a s).1 = .ok ()) ∧ ∀ e, (f a s).1 = .error e → (g a s).1 = .error e) ∧
    (plt.fn name = none → iwrap plt name = .notImplemented) := by
  refine ⟨fun f hf => ?_, fun hf => ?_⟩
  · refine ⟨_, by unfold iwrap; rw [hf], fun a s => ?_⟩
    rcases h : f a s with ⟨r, s'⟩
    cases r with
    | ok o => exact ⟨rfl, fun _ _ => rfl, fun e he => (by cases he)⟩
    | error e => exact ⟨rfl, fun o ho => (by cases ho), fun e' he => (by cases he; rfl)⟩
  · unfold iwrap; rw [hf]

/-- **C72**, xylim: every limit given is set, those that are `None` and everything else stay. -/
theorem C72_xylim (xmin xmax ymin ymax : Option K) (s : Axes K σ) :
    (∀ v, xmin = some v → (xylim xmin xmax ymin ymax s).xmin = v) ∧ (xmin = none → (xylim xmin xmax ymin ymax s).xmin = s.xmin) ∧
    (∀ v, xmax = some v → (xylim xmin xmax ymin ymax s).xmax = v) ∧ (xmax = none → (xylim xmin xmax ymin ymax s).xmax = s.xmax) ∧
    (∀ v, ymin = some v → (xylim xmin xmax ymin ymax s).ymin = v) ∧ (ymin = none → (xylim xmin xmax ymin ymax s).ymin = s.ymin) ∧
    (∀ v, ymax = some v → (xylim xmin xmax ymin ymax s).ymax = v) ∧ (ymax = none → (xylim xmin xmax ymin ymax s).ymax = s.ymax) ∧
    (xylim xmin xmax ymin ymax s).xlog = s.xlog ∧ (xylim xmin xmax ymin ymax s).ylog = s.ylog ∧
    (xylim xmin xmax ymin ymax s).other = s.other := by
  refine ⟨?_, ?_, ?_, ?_, ?_, ?_, ?_, ?_, rfl, rfl, rfl⟩ <;> (intros; subst_vars; rfl)

/-- **C72**, logxy with one argument: it applies to both axes; `None` leaves both alone. -/
theorem C72_logxy_both (s : Axes K σ) :
    (∀ b, logxy (some b) .omitted s = { s with xlog := b, ylog := b }) ∧ logxy none .omitted s = s :=
  ⟨fun _ => rfl, rfl⟩

/-- **C72**, logxy with two arguments: the first is for the x axis only, the second for the y axis only. -/
theorem C72_logxy_separate (x y : Option Bool) (s : Axes K σ) :
    logxy x (.given y) s = { s with xlog := x.getD s.xlog, ylog := y.getD s.ylog } := by
  cases x <;> cases y <;> rfl

example : logxy (some true) (.given none) (⟨false, true, 0, 1, 0, 1, ()⟩ : Axes ℕ Unit) = ⟨true, true, 0, 1, 0, 1, ()⟩ := rfl

example : logxy none (.given (some false)) (⟨true, true, 0, 1, 0, 1, ()⟩ : Axes ℕ Unit) = ⟨true, false, 0, 1, 0, 1, ()⟩ := rfl

end

/-! ### C74: the domain is the (finite) set of colour tables -/

/-- **C74**: the modified sets are the full sets without their yellow, reordered. -/
theorem C74_no_yellow :
    CBQ.set1ny.Perm (CBQ.set1.erase "#FFFF33") ∧ CBQ.pastel1ny.Perm (CBQ.pastel1.erase "#FFFFCC") ∧
    CBQ.set3ny.Perm (CBQ.set3.erase "#FFFFB3") ∧ CBQ.accentny.Perm (CBQ.accent.erase "#FFFF99") ∧
    "#FFFF33" ∈ CBQ.set1 ∧ "#FFFFCC" ∈ CBQ.pastel1 ∧ "#FFFFB3" ∈ CBQ.set3 ∧ "#FFFF99" ∈ CBQ.accent ∧
    CBQ.paired[10]? = some "#FFFF99" := by decide

/-- **C74**: no set repeats a colour. -/
theorem C74_distinct : ∀ name l, CBQ.get name = .ok l → l.Nodup := by
  intro name l h
  unfold CBQ.get at h
  split at h <;> first | (cases h; decide) | cases h

/-- **C74**: the documented sizes. -/
theorem C74_sizes : CBQ.set1.length = 9 ∧ CBQ.pastel1.length = 9 ∧ CBQ.set2.length = 8 ∧ CBQ.pastel2.length = 8 ∧
    CBQ.dark2.length = 8 ∧ CBQ.set3.length = 12 ∧ CBQ.accent.length = 8 ∧ CBQ.paired.length = 12 ∧
    CBQ.set1ny.length = 8 ∧ CBQ.pastel1ny.length = 8 ∧ CBQ.set3ny.length = 11 ∧ CBQ.accentny.length = 7 := by decide

/-- **C74**, set_color_cycle without axes: a known set becomes the default cycle and nothing else changes; an unknown
name raises AttributeError and changes nothing. -/
theorem C74_set_color_cycle (name : String) (r : Rc) :
    (∀ l, CBQ.get name = .ok l → (setColorCycle name none r).1 = .ok () ∧
      (setColorCycle name none r).2.1 "axes.prop_cycle" = .cycle l ∧
      ∀ k, k ≠ "axes.prop_cycle" → (setColorCycle name none r).2.1 k = r k) ∧
    (∀ e, CBQ.get name = .error e → (setColorCycle name none r).1 = .error e ∧ (setColorCycle name none r).2.1 = r) := by
  refine ⟨fun l hl => ?_, fun e he => ?_⟩
  · unfold setColorCycle
    rw [hl]
    exact ⟨rfl, by simp [Rc.set], fun k hk => by simp [Rc.set, hk]⟩
  · unfold setColorCycle
    rw [he]
    exact ⟨rfl, rfl⟩

/-- **C74, refuted for the `axes` argument**: with an Axes object the docstring promises to set the cycle of these axes;
instead their cycle is left alone and the default cycle changes. -/
theorem C74_axes_argument_refuted (name : String) (l old : List String) (r : Rc) (h : CBQ.get name = .ok l) :
    (setColorCycle name (some old) r).2.2 = some old ∧
    (setColorCycle name (some old) r).2.1 "axes.prop_cycle" = .cycle l := by
  unfold setColorCycle
  rw [h]
  exact ⟨rfl, by simp [Rc.set]⟩

example : CBQ.get "set1ny" = .ok CBQ.set1ny ∧ CBQ.get "nosuch" = .error .attributeError := ⟨rfl, rfl⟩

/-! ### C76: style_npp and title -/

theorem setAll_other (l : List (String × RcVal)) : ∀ (r : Rc) (k : String), k ∉ l.map Prod.fst → r.setAll l k = r k := by
  induction l with
  | nil => intro r k _; rfl
  | cons a l ih =>
    intro r k hk
    rw [List.map_cons, List.mem_cons, not_or] at hk
    rw [Rc.setAll, ih _ _ hk.2]
    simp [Rc.set, hk.1]

theorem setAll_mem (l : List (String × RcVal)) : ∀ (r : Rc) (k : String) (v : RcVal), (l.map Prod.fst).Nodup → (k, v) ∈ l →
    r.setAll l k = v := by
  induction l with
  | nil => intro r k v _ h; simp at h
  | cons a l ih =>
    intro r k v hn h
    rw [List.map_cons, List.nodup_cons] at hn
    rw [Rc.setAll]
    rcases List.mem_cons.1 h with rfl | h
    · rw [setAll_other l _ _ hn.1]; simp [Rc.set]
    · exact ih _ k v hn.2 h

theorem styleTail_nodup (box : Bool) : ((styleTail box).map Prod.fst).Nodup := by cases box <;> decide

theorem styleTail_keys (box : Bool) : (styleTail box).map Prod.fst = (styleTail false).map Prod.fst := by cases box <;> rfl

/-- **C76**: `style_npp` sets the colormap, the cycle and the documented parameters; every other parameter keeps its
value (`cycle=''` keeps the default cycle too).  For all previous settings. -/
theorem C76_style (box : Bool) (cycle : String) (l : List String) (r : Rc) (h : cycle = "" ∨ CBQ.get cycle = .ok l) :
    (styleNpp box cycle r).1 = .ok () ∧
    (styleNpp box cycle r).2 "image.cmap" = .str "viridis" ∧ (styleNpp box cycle r).2 "image.aspect" = .str "auto" ∧
    (styleNpp box cycle r).2 "savefig.bbox" = .str "tight" ∧
    (styleNpp box cycle r).2 "xtick.direction" = .str (if box then "in" else "out") ∧
    (styleNpp box cycle r).2 "ytick.direction" = .str (if box then "in" else "out") ∧
    (styleNpp box cycle r).2 "axes.prop_cycle" = (if cycle = "" then r "axes.prop_cycle" else .cycle l) ∧
    (∀ k v, (k, v) ∈ styleTail box → (styleNpp box cycle r).2 k = v) ∧
    ∀ k, k ∉ "image.cmap" :: "axes.prop_cycle" :: (styleTail false).map Prod.fst → (styleNpp box cycle r).2 k = r k := by
  have key : ∃ r' : Rc, styleNpp box cycle r = (.ok (), r'.setAll (styleTail box)) ∧ r' "image.cmap" = .str "viridis" ∧
      r' "axes.prop_cycle" = (if cycle = "" then r "axes.prop_cycle" else .cycle l) ∧
      ∀ k, k ≠ "image.cmap" → k ≠ "axes.prop_cycle" → r' k = r k := by
    unfold styleNpp
    by_cases hc : cycle = ""
    · simp only [hc, ne_eq, not_true_eq_false, if_false, if_true]
      exact ⟨_, rfl, by simp [Rc.set], by simp [Rc.set], fun k hk _ => by simp [Rc.set, hk]⟩
    · have hl := h.resolve_left hc
      simp only [ne_eq, hc, not_false_iff, if_true, setColorCycle, hl, if_false]
      exact ⟨_, rfl, by simp [Rc.set], by simp [Rc.set], fun k hk hk' => by simp [Rc.set, hk, hk']⟩
  obtain ⟨r', h1, h2, h3, h4⟩ := key
  rw [h1]
  have hm := fun k v hkv => setAll_mem (styleTail box) r' k v (styleTail_nodup box) hkv
  have ho := fun k hk => setAll_other (styleTail box) r' k hk
  refine ⟨rfl, ?_, ?_, ?_, ?_, ?_, ?_, hm, fun k hk => ?_⟩
  · rw [← h2]; exact ho _ (by rw [styleTail_keys]; decide)
  · exact hm _ _ (by cases box <;> simp [styleTail])
  · exact hm _ _ (by cases box <;> simp [styleTail])
  · exact hm _ _ (by cases box <;> simp [styleTail])
  · exact hm _ _ (by cases box <;> simp [styleTail])
  · rw [← h3]; exact ho _ (by rw [styleTail_keys]; decide)
  · simp only [List.mem_cons, not_or] at hk
    rw [← h4 k hk.1 hk.2.1]
    exact ho k (by rw [styleTail_keys]; exact hk.2.2)

/-- **C76**: calling it twice is the same as calling it once. -/
theorem C76_idempotent (box : Bool) (cycle : String) (l : List String) (r : Rc) (h : cycle = "" ∨ CBQ.get cycle = .ok l) :
    (styleNpp box cycle (styleNpp box cycle r).2).2 = (styleNpp box cycle r).2 := by
  funext k
  have h1 := C76_style box cycle l r h
  have h2 := C76_style box cycle l (styleNpp box cycle r).2 h
  by_cases hk : k ∉ "image.cmap" :: "axes.prop_cycle" :: (styleTail false).map Prod.fst
  · exact h2.2.2.2.2.2.2.2.2 k hk
  · simp only [not_not, List.mem_cons] at hk
    rcases hk with rfl | rfl | hk
    · rw [h1.2.1, h2.2.1]
    · rw [h1.2.2.2.2.2.2.1, h2.2.2.2.2.2.2.1, h1.2.2.2.2.2.2.1]
      split_ifs <;> rfl
    · rw [← styleTail_keys box] at hk
      obtain ⟨⟨k', v⟩, hkv, rfl⟩ := List.mem_map.1 hk
      rw [h1.2.2.2.2.2.2.2.1 _ v hkv, h2.2.2.2.2.2.2.2.1 _ v hkv]

section title
variable {V : Type} (isNone : V → Bool) (v103 : V)

/-- **C76**, title: without a `y` keyword, `y=1.03` is added exactly if the ticks point outwards; the other keywords
(except `ret`) are passed on unchanged and in order. -/
theorem C76_title_no_y (out : Bool) (kw : Kwargs V) (h : ∀ a ∈ kw, a.1 ≠ ['y']) :
    titleKwargs isNone v103 out kw =
      .ok ((if out then [(['y'], v103)] else []) ++ kw.filter (fun a => a.1 ≠ ['r', 'e', 't'])) := by
  unfold titleKwargs
  have h1 : kw.find? (fun a => a.1 = ['y']) = none := by
    rw [List.find?_eq_none]; intro a ha; simpa using h a ha
  have h2 : (kw.filter (fun a => a.1 ≠ ['r', 'e', 't'])).any (fun a => a.1 = ['y']) = false := by
    rw [List.any_eq_false]
    intro a ha
    simpa using h a (List.mem_filter.1 ha).1
  simp only [h1, Option.all_none, true_and]
  cases out with
  | true => simp only [if_true]; rw [if_neg (by rw [h2]; simp)]; rfl
  | false => simp

/-- **C76**, title: a `y` that is not `None` is respected. -/
theorem C76_title_y (out : Bool) (kw : Kwargs V) (y : V) (hy : isNone y = false)
    (h : kw.find? (fun a => a.1 = ['y']) = some (['y'], y)) :
    titleKwargs isNone v103 out kw = .ok (kw.filter (fun a => a.1 ≠ ['r', 'e', 't'])) := by
  unfold titleKwargs
  simp only [h, Option.all_some, hy]
  simp

/-- **C76, refuted for `y=None`**: matplotlib accepts it (automatic position), but with outward ticks `title` raises
TypeError, because it adds `y=1.03` to keywords that already have a `y`. -/
theorem C76_title_y_none_refuted (kw : Kwargs V) (y : V) (hy : isNone y = true) (h : (['y'], y) ∈ kw)
    (hd : ∀ a ∈ kw, a.1 = ['y'] → a.2 = y) : titleKwargs isNone v103 true kw = .error .typeError := by
  unfold titleKwargs
  have h1 : (kw.find? (fun a => a.1 = ['y'])).all (fun a => isNone a.2) = true := by
    cases hf : kw.find? (fun a => a.1 = ['y']) with
    | none => rfl
    | some a =>
      have h1 := List.find?_some hf
      have h2 := List.mem_of_find?_eq_some hf
      simp only [Option.all_some]
      rw [hd a h2 (by simpa using h1)]; exact hy
  have h2 : (kw.filter (fun a => a.1 ≠ ['r', 'e', 't'])).any (fun a => a.1 = ['y']) = true := by
    rw [List.any_eq_true]
    exact ⟨_, List.mem_filter.2 ⟨h, by simp⟩, by simp⟩
  simp only [h1, true_and, if_true]
  rw [if_pos h2]

example : titleKwargs (fun v : Option ℕ => v.isNone) (some 103) true [(['l', 'o', 'c'], some 1), (['r', 'e', 't'], some 2)] =
    .ok [(['y'], some 103), (['l', 'o', 'c'], some 1)] := by decide

example : titleKwargs (fun v : Option ℕ => v.isNone) (some 103) true [(['y'], none)] = .error .typeError := by decide

end title

end Npplus
