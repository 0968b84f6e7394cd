import Verif.Model.Fermi
import Mathlib.Analysis.SpecialFunctions.Trigonometric.Basic
import Mathlib.Analysis.SpecialFunctions.Pow.Real

/-!
# Model of npplus/randomx.py

The random number generator is an arbitrary source: the `k`-th call `random(shape)` returns an array with the
elements `rng k`; the only thing known is that they are in `[0, 1)`.  Exact real arithmetic.
-/

namespace Npplus.Randomx

/-- The generator: call number → multi-index → value. -/
abbrev Rng := ℕ → List ℕ → ℝ

/-- `numpy.random.random(shape)`, the `k`-th call. -/
def random (rng : Rng) (k : ℕ) (shape : List ℕ) : NdArr ℝ := ⟨shape, rng k⟩

/-- The `size` argument. -/
inductive Size where
  | none
  | int (n : ℕ)
  | tuple (s : List ℕ)

/-- randomx.py:52-58 (the same in all functions): `size` as a tuple. -/
def Size.toTuple : Size → List ℕ
  | .none => []
  | .int n => [n]
  | .tuple s => s

/-- the `i`-th of the arrays obtained by unpacking along the first axis -/
def unpack (i : ℕ) (a : NdArr ℝ) : NdArr ℝ := ⟨a.shape.drop 1, fun idx => a.get (i :: idx)⟩

/-- `concatenate((a, b), axis=-1)` for arrays with `d + 1` axes -/
def catLast (d : ℕ) (a b : NdArr ℝ) : NdArr ℝ := NdArr.concatAx d a b

/-- randomx.py:76-82 and 150-156: the loop of the rejection method in `dim` dimensions.  `k` is the number of the next
generator call, `need` is `nmore`, `p` the accepted points so far; `fuel` bounds the number of passes (`none`: the
generator has not delivered enough points yet).  `nmore -= len(q)` may become negative, which ends the loop. -/
noncomputable def reject (rng : Rng) (dim : ℕ) (fac : ℝ) : ℕ → ℕ → ℤ → List (List ℝ) → Option (List (List ℝ))
  | 0, _, nmore, p => if nmore > 0 then none else some p
  | fuel + 1, k, nmore, p =>
    if nmore > 0 then
      let m := ⌊((nmore : ℝ) + 5 * Real.sqrt nmore) * fac⌋₊
      let q := (List.range m).map fun i => (List.range dim).map fun j => 2 * (random rng k [m, dim]).get [i, j] - 1
      let q := q.filter fun x => decide ((x.map fun t => t * t).sum < 1)
      reject rng dim fac fuel (k + 1) (nmore - q.length) (p ++ q)
    else some p

/-- `concatenate(p)[:n].reshape(size + (dim,))` for a list of rows of length `dim`. -/
def rowsReshape (dim : ℕ) (size : List ℕ) (rows : List (List ℝ)) : NdArr ℝ :=
  NdArr.ofList (size ++ [dim]) ((rows.take size.prod).flatten)

/-- randomx.py:39-82 `incircle(size)`. -/
noncomputable def incircle (rng : Rng) (size : Size) (fuel : ℕ) : Option (Except PyErr (NdArr ℝ)) :=
  let size := size.toTuple
  let n := size.prod
  if n < 330 then
    let r := random rng 0 (2 :: (size ++ [1]))
    let t := (unpack 0 r).map fun t => t * (2 * Real.pi)
    let z := unpack 1 r
    some ((z.map Real.sqrt).zip (· * ·) (catLast size.length (t.map Real.cos) (t.map Real.sin)))
  else
    (reject rng 2 (4 / Real.pi) fuel 0 n []).map fun p => .ok (rowsReshape 2 size p)

/-- randomx.py:85-108 `oncircle(size)`; `k` is the generator call used. -/
noncomputable def oncircle (rng : Rng) (k : ℕ) (size : Size) : NdArr ℝ :=
  let size := size.toTuple
  let theta := (random rng k (size ++ [1])).map fun t => 2 * Real.pi * t
  catLast size.length (theta.map Real.cos) (theta.map Real.sin)

/-- randomx.py:111-156 `insphere(size)`. -/
noncomputable def insphere (rng : Rng) (size : Size) (fuel : ℕ) : Option (Except PyErr (NdArr ℝ)) :=
  let size := size.toTuple
  let n := size.prod
  if n < 70 then
    let r := random rng 0 (3 :: (size ++ [1]))
    let mu := (unpack 0 r).map fun mu => 2 * mu - 1
    let phi := (unpack 1 r).map fun t => t * (2 * Real.pi)
    let z := unpack 2 r
    let s := mu.map fun mu => Real.sqrt (1 - mu)
    some (do
      let a ← s.zip (· * ·) (phi.map Real.cos)
      let b ← s.zip (· * ·) (phi.map Real.sin)
      (z.map fun z => z ^ (1 / 3 : ℝ)).zip (· * ·) (catLast size.length (catLast size.length a b) mu))
  else
    (reject rng 3 (6 / Real.pi) fuel 0 n []).map fun p => .ok (rowsReshape 3 size p)

/-- randomx.py:159-175 `onsphere(size)`. -/
noncomputable def onsphere (rng : Rng) (size : Size) : Except PyErr (NdArr ℝ) := do
  let xy := oncircle rng 0 size
  let z := (random rng 1 (xy.shape.dropLast ++ [1])).map fun z => 2 * z - 1
  let xy ← xy.zip (· * ·) (z.map fun z => Real.sqrt (1 - z * z))
  return catLast size.toTuple.length xy z

/-- randomx.py:178-230 `rotation3(size)`.  The trailing axes `size` of all arrays in the function are only carried
along elementwise, so the model computes the 3×3 entries at each trailing index; the final transpose moves the two
matrix axes last. -/
noncomputable def rotation3 (rng : Rng) (size : Size) : NdArr ℝ :=
  let size := size.toTuple
  let r := (random rng 0 (3 :: 1 :: size)).map fun u => 2 * u
  let entry : List ℕ → ℕ → ℕ → ℝ := fun idx =>
    let theta := r.get (0 :: 0 :: idx) * Real.pi
    let phi := r.get (1 :: 0 :: idx) * Real.pi
    let z := r.get (2 :: 0 :: idx)
    let rr := Real.sqrt z
    let v : ℕ → ℝ := fun i => if i = 0 then rr * Real.sin phi else if i = 1 then rr * Real.cos phi else Real.sqrt (2 - z)
    let st := Real.sin theta
    let ct := Real.cos theta
    let s : ℕ → ℝ := fun j => if j = 0 then v 0 * ct - v 1 * st else v 0 * st + v 1 * ct
    let m : ℕ → ℕ → ℝ := fun i _ => v i
    let m : ℕ → ℕ → ℝ := fun i j => if j < 2 then m i j * s j else m i j
    let m : ℕ → ℕ → ℝ := fun i j => if i = 0 ∧ j < 2 then m i j - (if j = 0 then ct else st) else m i j
    let m : ℕ → ℕ → ℝ := fun i j => if i = 1 ∧ j < 2 then m i j + (if j = 0 then st else -ct) else m i j
    let m : ℕ → ℕ → ℝ := fun i j => if i < 2 ∧ j = 2 then m i j * v 2 else m i j
    fun i j => if i = 2 ∧ j = 2 then 1 - z else m i j
  ⟨size ++ [3, 3], fun idx => entry (idx.take size.length) (idx.getD size.length 0) (idx.getD (size.length + 1) 0)⟩

end Npplus.Randomx
