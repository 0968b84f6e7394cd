import Verif.Model.Interactive
import Mathlib.Algebra.Order.Floor.Ring
import Mathlib.Tactic.Linarith
import Mathlib.Tactic.FinCases
import Mathlib.Tactic.NormNum
import Mathlib.Tactic.Positivity

/-!
# Properties C92 (execfile) and C93 (colour maps)
-/

set_option linter.unusedSectionVars false
namespace Npplus

/-! ## C92 execfile -/

section
variable {Val : Type} (f : Files Val) (here : ℕ) (name : String) (s : Proc Val)

/-- python 2: `execfile(name, globals, locals)`; `caller` is the pair of the caller's globals and locals, used when no dictionary
is given. -/
def execfilePy2 (caller : ℕ × ℕ) (args : List ℕ) : Except PyErr Unit × Proc Val :=
  match f.load name with
  | .error e => (.error e, s)
  | .ok code => match args with
    | [] => f.exec code caller.1 caller.2 s
    | [g] => f.exec code g g s
    | [g, l] => f.exec code g l s
    | _ => (.error .typeError, s)

/-- C92.  With one or two dictionaries (or too many arguments) `execfile` is python 2's, whoever calls it; a file that cannot be
read or compiled raises and changes nothing. -/
theorem C92_given (caller : ℕ × ℕ) (args : List ℕ) (h : args ≠ []) :
    execfile f here name args s = execfilePy2 f name s caller args := by
  unfold execfile execfilePy2
  rw [if_pos (List.length_pos_of_ne_nil h)]
  cases f.load name with
  | error e => rfl
  | ok code =>
    match args, h with
    | [g], _ => rfl
    | [g, l], _ => rfl
    | g :: l :: k :: r, _ => rfl

/-- C92.  Without dictionaries the file is run in the namespace of the module npplus.interactive: python 2's behaviour only when
the caller is that module itself. -/
theorem C92_default_partial : execfile f here name [] s = execfilePy2 f name s (here, here) [] := by
  unfold execfile execfilePy2 pyExec
  cases f.load name <;> rfl

/-- A file with the text `a = 1`. -/
def assignA : Files ℕ where
  load _ := .ok 0
  exec _ _ l s := (.ok (), ⟨fun d n => if d = l ∧ n = "a" then some 1 else s.dict d n⟩)

/-- C92.  Called from any other namespace, `execfile(name)` does not define the file's names there: python 2's does. -/
theorem C92_default_refuted (caller : ℕ) (hne : caller ≠ here) :
    (execfile assignA here name [] ⟨fun _ _ => none⟩).2.dict caller "a" = none ∧
      (execfilePy2 assignA name ⟨fun _ _ => none⟩ (caller, caller) []).2.dict caller "a" = some 1 := by
  constructor
  · change (if caller = here ∧ ("a" : String) = "a" then some 1 else none) = none
    rw [if_neg (by simp [hne])]
  · change (if caller = caller ∧ ("a" : String) = "a" then some 1 else none) = some 1
    rw [if_pos ⟨rfl, rfl⟩]

end

example : (execfile assignA 0 "x.py" [7] ⟨fun _ _ => none⟩).2.dict 7 "a" = some 1 := rfl

/-! ## C93 colour maps -/

namespace Cmaps

/-- The names the module documents (`__all__`, mpl2cmaps.py:18). -/
def names : List String := ["magma", "inferno", "plasma", "viridis"]

/-- The tables as documented: one per name. -/
def table : String → Option Table
  | "magma" => some magmaData
  | "inferno" => some infernoData
  | "plasma" => some plasmaData
  | "viridis" => some viridisData
  | _ => none

/-- C93.  Importing the module registers exactly the four colour maps, each under its name. -/
theorem C93_import (s : State) (n : String) :
    (importModule s).registry n = (if n ∈ names then table n else s.registry n) ∧ (importModule s).rc = s.rc ∧
      (importModule s).images = s.images ∧ (importModule s).current = s.current := by
  refine ⟨?_, rfl, rfl, rfl⟩
  change (if n = "viridis" then some viridisData else if n = "plasma" then some plasmaData else
    if n = "inferno" then some infernoData else if n = "magma" then some magmaData else s.registry n) = _
  by_cases h1 : n = "viridis"
  · subst h1; rfl
  by_cases h2 : n = "plasma"
  · subst h2; rfl
  by_cases h3 : n = "inferno"
  · subst h3; rfl
  by_cases h4 : n = "magma"
  · subst h4; rfl
  rw [if_neg h1, if_neg h2, if_neg h3, if_neg h4, if_neg (by simp [names, h1, h2, h3, h4])]

/-- C93.  Each of the four functions (after the import, in any state) succeeds, makes its own colour map the default one and that
of the current image if there is one, and changes no other parameter, image or registered colour map. -/
theorem C93_call (s : State) (hs : ∀ n ∈ names, (s.registry n).isSome) (n : String) (hn : n ∈ names) :
    ∃ f s', lookup n = some f ∧ f s = .ok s' ∧ s'.rc "image.cmap" = .str n ∧ (∀ k, k ≠ "image.cmap" → s'.rc k = s.rc k) ∧
      (∀ i, s.current = some i → s'.images i = some n) ∧ (∀ i, s.current ≠ some i → s'.images i = s.images i) ∧
      s'.registry = s.registry ∧ s'.current = s.current := by
  have hl : lookup n = some (cminst n) := by
    simp only [names, List.mem_cons, List.not_mem_nil, or_false] at hn
    rcases hn with rfl | rfl | rfl | rfl <;> rfl
  obtain ⟨t, ht⟩ := Option.isSome_iff_exists.1 (hs n hn)
  cases hc : s.current with
  | none =>
    refine ⟨_, { s with rc := s.rc.set "image.cmap" (.str n), draws := s.draws + 1 }, hl, ?_, ?_, ?_, ?_, ?_, rfl, ?_⟩
    · simp [cminst, hc, Pure.pure, Bind.bind, Except.bind, Except.pure]
    · simp [Rc.set]
    · intro k hk; simp [Rc.set, hk]
    · simp
    · simp
    · exact hc
  | some i =>
    refine ⟨_, ⟨s.registry, s.rc.set "image.cmap" (.str n), fun j => if j = i then some n else s.images j, s.current, s.draws + 1⟩, hl,
      ?_, ?_, ?_, ?_, ?_, rfl, ?_⟩
    · simp [cminst, hc, setCmap, ht, Pure.pure, Bind.bind, Except.bind, Except.pure]
    · simp [Rc.set]
    · intro k hk; simp [Rc.set, hk]
    · intro j hj; cases hj; simp
    · intro j hj
      have : j ≠ i := fun e => hj (by rw [e])
      simp [this]
    · exact hc

/-- The state after the import meets the hypothesis. -/
example (s : State) : ∀ n ∈ names, ((importModule s).registry n).isSome := by
  intro n hn
  rw [(C93_import s n).1, if_pos hn]
  simp only [names, List.mem_cons, List.not_mem_nil, or_false] at hn
  rcases hn with rfl | rfl | rfl | rfl <;> rfl

/-- Brightness of a colour as used for conversion to grey (Rec. 601), in units of 10^-9. -/
def luma (c : ℕ × ℕ × ℕ) : ℕ := 299 * c.1 + 587 * c.2.1 + 114 * c.2.2

/-- 256 colours, all components in [0, 1], strictly increasing brightness -/
def good (t : Table) : Bool :=
  t.length == 256 && t.all (fun c => c.1 ≤ 1000000 && c.2.1 ≤ 1000000 && c.2.2 ≤ 1000000) &&
    (List.range 255).all fun i => luma (t.getD i (0, 0, 0)) < luma (t.getD (i + 1) (0, 0, 0))

theorem good_all : good magmaData = true ∧ good infernoData = true ∧ good plasmaData = true ∧ good viridisData = true := by
  refine ⟨?_, ?_, ?_, ?_⟩ <;> decide +kernel

theorem table_good {n : String} {t : Table} (h : table n = some t) : good t = true := by
  unfold table at h
  split at h
  · cases h; exact good_all.1
  · cases h; exact good_all.2.1
  · cases h; exact good_all.2.2.1
  · cases h; exact good_all.2.2.2
  · simp at h

/-- C93.  Each table has 256 colours with components between 0 and 1. -/
theorem C93_table {n : String} {t : Table} (h : table n = some t) :
    t.length = 256 ∧ ∀ c ∈ t, c.1 ≤ 10 ^ 6 ∧ c.2.1 ≤ 10 ^ 6 ∧ c.2.2 ≤ 10 ^ 6 := by
  have := table_good h
  simp only [good, Bool.and_eq_true, beq_iff_eq, List.all_eq_true, decide_eq_true_eq] at this
  exact ⟨this.1.1, fun c hc => ⟨(this.1.2 c hc).1.1, (this.1.2 c hc).1.2, (this.1.2 c hc).2⟩⟩

theorem luma_lt {n : String} {t : Table} (h : table n = some t) {i j : ℕ} (hij : i < j) (hj : j < 256) :
    luma (t.getD i (0, 0, 0)) < luma (t.getD j (0, 0, 0)) := by
  have := table_good h
  simp only [good, Bool.and_eq_true, List.all_eq_true, decide_eq_true_eq, List.mem_range] at this
  have hs := this.2
  induction j with
  | zero => omega
  | succ j ih =>
    rcases Nat.lt_succ_iff_lt_or_eq.1 hij with hlt | rfl
    · exact (ih hlt (by omega)).trans (hs j (by omega))
    · exact hs i (by omega)

/-- C93.  The colours survive conversion to grey: a larger value is never darker, and it is brighter whenever the colours
differ. -/
theorem C93_brightness {n : String} {t : Table} (h : table n = some t) {x y : ℝ} (hxy : x ≤ y) :
    luma (colour t x) ≤ luma (colour t y) ∧ (colour t x ≠ colour t y → luma (colour t x) < luma (colour t y)) := by
  have hl := (C93_table h).1
  unfold colour
  have hm : min ⌊x * t.length⌋₊ (t.length - 1) ≤ min ⌊y * t.length⌋₊ (t.length - 1) :=
    min_le_min_right _ (Nat.floor_le_floor (by rw [hl]; nlinarith))
  have hb : min ⌊y * t.length⌋₊ (t.length - 1) < 256 := by
    refine lt_of_le_of_lt (min_le_right _ _) ?_
    rw [hl]; norm_num
  rcases hm.lt_or_eq with hlt | heq
  · have := luma_lt h hlt hb
    exact ⟨this.le, fun _ => this⟩
  · rw [heq]
    exact ⟨le_rfl, fun hne => absurd rfl hne⟩

/-- C93.  Values at least 1/256 apart within [0, 1] get different brightness. -/
theorem C93_distinct {n : String} {t : Table} (h : table n = some t) {x y : ℝ} (hx : 0 ≤ x) (hxy : x + 1 / 256 ≤ y) (hy : y < 1) :
    luma (colour t x) < luma (colour t y) := by
  have hl := (C93_table h).1
  unfold colour
  rw [hl]
  have h1 : ⌊x * (256 : ℕ)⌋₊ + 1 ≤ ⌊y * (256 : ℕ)⌋₊ := by
    rw [← Nat.floor_add_one (by positivity)]
    apply Nat.floor_le_floor
    push_cast
    linarith
  have h2 : ⌊y * (256 : ℕ)⌋₊ < 256 := by
    rw [Nat.floor_lt (by push_cast; linarith)]
    push_cast; linarith
  exact luma_lt h (by omega) (by omega)

example : colour viridisData 0 = (267004, 4874, 329415) := by
  have : (⌊(0 : ℝ) * (viridisData.length : ℝ)⌋₊) = 0 := by simp
  unfold colour
  rw [this]
  decide +kernel

end Cmaps

end Npplus
