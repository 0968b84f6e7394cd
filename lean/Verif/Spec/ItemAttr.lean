import Verif.Model.ItemAttr
import Mathlib.Logic.Function.Basic

/-!
# Specification vocabulary for itemattr: maps, keys of attribute names, nested dicts
-/

namespace Npplus.Spec
open Npplus.ItemAttr

/-- `key` is the item which the attribute `name` stands for: one trailing underscore is an escape. -/
def KeyOf (name key : Name) : Prop := name = key ++ ['_'] ∨ (name = key ∧ ¬ ∃ l, name = l ++ ['_'])

/-- A mathematical map: what a dict means. -/
abbrev PMap (V : Type) := Key → Option V

/-- The map held by a dict. -/
def content {V : Type} (d : List (Key × V)) : PMap V := fun k => (d.find? (fun p => p.1 = k)).map Prod.snd

/-- Item access on maps. -/
def PMap.step {V A : Type} (m : PMap V) : Op V → PMap V × Except PyErr (Out V A)
  | .getitem k => (m, match m k with | some v => .ok (.item v) | none => .error .keyError)
  | .setitem k v => (Function.update m k (some v), .ok .unit)
  | .delitem k => match m k with
    | some _ => (Function.update m k none, .ok .unit)
    | none => (m, .error .keyError)
  | _ => (m, .ok .unit)

/-- A sequence of item accesses on a map. -/
def PMap.run {V A : Type} (m : PMap V) : List (Op V) → PMap V × List (Except PyErr (Out V A))
  | [] => (m, [])
  | o :: os => let r : PMap V × Except PyErr (Out V A) := m.step o; let q := PMap.run r.1 os; (q.1, r.2 :: q.2)

/-- The item operation that an attribute operation is documented to stand for (`key` gives the key of a name). -/
def asItem {V : Type} (key : Name → Name) : Op V → Op V
  | .getattr n => .getitem (.str (key n))
  | .setattr n v => .setitem (.str (key n)) v
  | .delattr n => .delitem (.str (key n))
  | o => o

mutual
/-- A finitely nested dict as a value. -/
inductive DTree (V : Type) where
  | leaf (a : V)
  | dict (c : DCls) (items : DItems V)
/-- The items of one dict, in order. -/
inductive DItems (V : Type) where
  | nil
  | cons (k : Key) (t : DTree V) (rest : DItems V)
end

/-- The keys in order. -/
def DItems.keys {V : Type} : DItems V → List Key
  | .nil => []
  | .cons k _ r => k :: r.keys

mutual
/-- Keys of each dict are distinct, at every level. -/
def DTree.WF {V : Type} : DTree V → Prop
  | .leaf _ => True
  | .dict _ its => its.keys.Nodup ∧ its.WF
def DItems.WF {V : Type} : DItems V → Prop
  | .nil => True
  | .cons _ t r => t.WF ∧ r.WF
end

mutual
/-- The same nested dict with every dict of class `c`. -/
def DTree.conv {V : Type} (c : DCls) : DTree V → DTree V
  | .leaf a => .leaf a
  | .dict _ its => .dict c (its.conv c)
def DItems.conv {V : Type} (c : DCls) : DItems V → DItems V
  | .nil => .nil
  | .cons k t r => .cons k (t.conv c) (r.conv c)
end

mutual
/-- Every dict in it has class `c`. -/
def DTree.All {V : Type} (c : DCls) : DTree V → Prop
  | .leaf _ => True
  | .dict c' its => c' = c ∧ its.All c
def DItems.All {V : Type} (c : DCls) : DItems V → Prop
  | .nil => True
  | .cons _ t r => t.All c ∧ r.All c
end

mutual
/-- In the heap `h` the value `v` is the nested dict `t`, and all dict objects in it have addresses `≥ lo`. -/
def Holds {V : Type} (lo : ℕ) (h : Heap V) : HVal V → DTree V → Prop
  | v, .leaf a => v = .leaf a
  | v, .dict c its => ∃ r l, v = .ref r ∧ lo ≤ r ∧ h[r]? = some (c, l) ∧ HoldsItems lo h l its
def HoldsItems {V : Type} (lo : ℕ) (h : Heap V) : List (Key × HVal V) → DItems V → Prop
  | l, .nil => l = []
  | l, .cons k t rest => ∃ v l', l = (k, v) :: l' ∧ Holds lo h v t ∧ HoldsItems lo h l' rest
end

mutual
/-- Nesting depth. -/
def DTree.depth {V : Type} : DTree V → ℕ
  | .leaf _ => 0
  | .dict _ its => its.depth + 1
def DItems.depth {V : Type} : DItems V → ℕ
  | .nil => 0
  | .cons _ t r => max t.depth r.depth
end

end Npplus.Spec
