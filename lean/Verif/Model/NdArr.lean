import Verif.NpShape
import Mathlib.Algebra.BigOperators.Group.Finset.Basic
import Mathlib.Data.List.GetD

/-!
# n-dimensional arrays and the numpy operations used by npplus/basic.py (library behaviour)

An array is its shape and its elements; only elements at valid indices matter.
-/

namespace Npplus

/-- A numpy array: shape and elements. -/
structure NdArr (α : Type) where
  shape : List ℕ
  get : List ℕ → α

/-- Valid (nonnegative) indices of an array of shape `s`. -/
def ValidIdx (s idx : List ℕ) : Prop := idx.length = s.length ∧ ∀ k < s.length, idx.getD k 0 < s.getD k 0

/-- The same array: same shape, same elements. -/
def NdArr.Same {α : Type} (a b : NdArr α) : Prop :=
  a.shape = b.shape ∧ ∀ idx, ValidIdx a.shape idx → a.get idx = b.get idx

/-- The index into an array of shape `s` that numpy uses for the element `idx` of an array it was broadcast
to: trailing axes are aligned, and an axis of length 1 is always read at 0. -/
def bcIdx (s idx : List ℕ) : List ℕ :=
  List.zipWith (fun d i => if d = 1 then 0 else i) s (idx.drop (idx.length - s.length))

/-- Length of the `k`-th axis counted from the last one; missing leading axes have length 1. -/
def rdim (s : List ℕ) (k : ℕ) : ℕ := s.reverse.getD k 1

/-- Whether shape `s` can be assigned (broadcast) to shape `t`; `s` has at most as many axes. -/
def canAssign (s t : List ℕ) : Bool :=
  decide (s.length ≤ t.length) && (List.range t.length).all fun k => rdim s k == rdim t k || rdim s k == 1

namespace NdArr
variable {α β γ : Type}

/-- elementwise function -/
def map (f : α → β) (a : NdArr α) : NdArr β := ⟨a.shape, fun idx => f (a.get idx)⟩

/-- elementwise function of two arrays, with broadcasting; ValueError when the shapes do not conform -/
def zip (f : α → β → γ) (a : NdArr α) (b : NdArr β) : Except PyErr (NdArr γ) := do
  let sh ← bcastShape a.shape b.shape
  return ⟨sh, fun idx => f (a.get (bcIdx a.shape idx)) (b.get (bcIdx b.shape idx))⟩

/-- `a.reshape(shape[:k] + (1,) + shape[k:])` -/
def newAxis (k : ℕ) (a : NdArr α) : NdArr α := ⟨a.shape.insertIdx k 1, fun idx => a.get (idx.eraseIdx k)⟩

/-- `a.repeat(num, axis=k)` -/
def repeatAx (num k : ℕ) (a : NdArr α) : NdArr α :=
  ⟨a.shape.set k (a.shape.getD k 0 * num), fun idx => a.get (idx.set k (idx.getD k 0 / num))⟩

/-- `f 0 + f 1 + ... + f n`, added from the left (`numpy.add.accumulate`); needs only the operation `+`. -/
def accum [Add α] (f : ℕ → α) : ℕ → α
  | 0 => f 0
  | n + 1 => accum f n + f (n + 1)

theorem accum_eq_sum [AddCommMonoid α] (f : ℕ → α) (n : ℕ) : accum f n = ∑ i ∈ Finset.range (n + 1), f i := by
  induction n with
  | zero => simp [accum]
  | succ n ih => rw [accum, ih, Finset.sum_range_succ _ (n + 1)]

/-- `a.cumsum(axis=k)` -/
def cumsumAx [Add α] (k : ℕ) (a : NdArr α) : NdArr α :=
  ⟨a.shape, fun idx => accum (fun i => a.get (idx.set k i)) (idx.getD k 0)⟩

/-- `a[..., lo:lo+len, ...]` on axis `k` -/
def sliceAx (k lo len : ℕ) (a : NdArr α) : NdArr α :=
  ⟨a.shape.set k len, fun idx => a.get (idx.set k (idx.getD k 0 + lo))⟩

/-- `concatenate((a, b), axis=k)` -/
def concatAx (k : ℕ) (a b : NdArr α) : NdArr α :=
  ⟨a.shape.set k (a.shape.getD k 0 + b.shape.getD k 0), fun idx =>
    if idx.getD k 0 < a.shape.getD k 0 then a.get idx else b.get (idx.set k (idx.getD k 0 - a.shape.getD k 0))⟩

/-- `a[..., lo:lo+len, ...] = v` on axis `k` (`v` is broadcast) -/
def setSlice (k lo len : ℕ) (a v : NdArr α) : Except PyErr (NdArr α) :=
  if canAssign v.shape (a.shape.set k len) then
    .ok ⟨a.shape, fun idx => if lo ≤ idx.getD k 0 ∧ idx.getD k 0 < lo + len
      then v.get (bcIdx v.shape (idx.set k (idx.getD k 0 - lo))) else a.get idx⟩
  else .error .valueError

/-- `a[..., i, ...] = v` on axis `k` (`v` is broadcast) -/
def setAt (k i : ℕ) (a v : NdArr α) : Except PyErr (NdArr α) :=
  if canAssign v.shape (a.shape.eraseIdx k) then
    .ok ⟨a.shape, fun idx => if idx.getD k 0 = i then v.get (bcIdx v.shape (idx.eraseIdx k)) else a.get idx⟩
  else .error .valueError

/-- The multi-index of the `i`-th element in C order. -/
def unravel : List ℕ → ℕ → List ℕ
  | [], _ => []
  | _ :: s, i => i / s.prod :: unravel s (i % s.prod)

/-- `a.ravel()` -/
def ravel (a : NdArr α) : NdArr α := ⟨[a.shape.prod], fun idx => a.get (unravel a.shape (idx.getD 0 0))⟩

/-- `numpy.diff(a, axis=k)` -/
def diffAx [Sub α] (k : ℕ) (a : NdArr α) : NdArr α :=
  ⟨a.shape.set k (a.shape.getD k 0 - 1), fun idx => a.get (idx.set k (idx.getD k 0 + 1)) - a.get idx⟩

end NdArr

/-! ### ravel, boolean masks, reshape -/

/-- flat C-order position of a multi-index -/
def ravelIdx : List ℕ → List ℕ → ℕ
  | _ :: s, i :: idx => i * s.prod + ravelIdx s idx
  | _, _ => 0

/-- `a.ravel()` as a list -/
def NdArr.toList {α : Type} (a : NdArr α) : List α := (List.range a.shape.prod).map fun i => a.get (NdArr.unravel a.shape i)

/-- `flat.reshape(shape)` -/
def NdArr.ofList {α : Type} [Zero α] (shape : List ℕ) (l : List α) : NdArr α := ⟨shape, fun idx => l.getD (ravelIdx shape idx) 0⟩

/-- `x[mask]` -/
def maskGet {α : Type} (mask : List Bool) (x : List α) : List α :=
  ((mask.zip x).filter (fun p => p.1)).map Prod.snd

/-- `y[mask] = vals` -/
def maskSet {α : Type} : List Bool → List α → List α → List α
  | true :: ms, v :: vs, _ :: ys => v :: maskSet ms vs ys
  | false :: ms, vs, y :: ys => y :: maskSet ms vs ys
  | _, _, ys => ys

/-- `shape[axis]`-like access to one of `nd` axes; IndexError outside. -/
def normAxis (nd : ℕ) (axis : ℤ) : Except PyErr ℕ :=
  if -(nd : ℤ) ≤ axis ∧ axis < nd then .ok (if axis < 0 then axis + nd else axis).toNat else .error .indexError

end Npplus
