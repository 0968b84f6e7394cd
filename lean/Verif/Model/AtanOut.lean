import Verif.Model.Basic

/-!
# basic.py `atan(..., out=out)`: arrays in memory
-/

namespace Npplus.Basic

/-- Arrays by identity: the state of the memory.  Simplification: two different arrays do not overlap (views of each other are not modelled). -/
abbrev Mem := ℕ → NdArr ℝ

/-- the array `out` gets new elements, its shape stays -/
def Mem.store (m : Mem) (out : ℕ) (g : List ℕ → ℝ) : Mem := Function.update m out ⟨(m out).shape, g⟩

/-- numpy `f(a, out=out)`: `a` is broadcast to the shape of `out`; ValueError if that is impossible.  All elements are read before any is
written (numpy buffers overlapping arguments). -/
def Mem.ufunc1 (m : Mem) (f : ℝ → ℝ) (a out : ℕ) : Except PyErr Unit × Mem :=
  if canAssign (m a).shape (m out).shape then
    (.ok (), m.store out fun idx => f ((m a).get (bcIdx (m a).shape idx)))
  else (.error .valueError, m)

/-- numpy `f(a, b, out=out)` -/
def Mem.ufunc2 (m : Mem) (f : ℝ → ℝ → ℝ) (a b out : ℕ) : Except PyErr Unit × Mem :=
  if canAssign (m a).shape (m out).shape && canAssign (m b).shape (m out).shape then
    (.ok (), m.store out fun idx => f ((m a).get (bcIdx (m a).shape idx)) ((m b).get (bcIdx (m b).shape idx)))
  else (.error .valueError, m)

/-- numpy `out[...] = r` for an `r` whose shape comes from broadcasting with `out`: it can be assigned when the shapes agree up to leading axes
of length 1. -/
def Mem.assign (m : Mem) (out : ℕ) (r : NdArr ℝ) : Except PyErr Unit × Mem :=
  let t := (m out).shape
  let k := r.shape.length - t.length
  if r.shape = List.replicate k 1 ++ t then (.ok (), m.store out fun idx => r.get (List.replicate k 0 ++ idx))
  else (.error .valueError, m)

/-- basic.py:310-325 `atan(a, b, out=out, branch=branch)` with `out` not `None`; the arguments are arrays of the memory.  The result is the
returned array (the code returns `out` itself without `branch`, and a new array with it) and the memory afterwards (also after an exception). -/
noncomputable def atanOut (m : Mem) (a : ℕ) (b branch : Option ℕ) (out : ℕ) : Except PyErr (NdArr ℝ) × Mem :=
  match b with
  | none =>                                                           -- 317
    match m.ufunc1 Real.arctan a out with
    | (.error e, m) => (.error e, m)
    | (.ok _, m) => (.ok (m out), m)
  | some b =>
    match m.ufunc2 arctan2 a b out with                               -- 318
    | (.error e, m) => (.error e, m)
    | (.ok _, m) =>
      match branch with
      | none => (.ok (m out), m)                                      -- 320
      | some c =>
        -- 322, `a` is `out`
        match (do
          let d ← (m out).zip (fun t c => rmod (t - c) (2 * Real.pi)) (m c)
          d.zip (· + ·) (m c) : Except PyErr (NdArr ℝ)) with
        | .error e => (.error e, m)
        | .ok r =>
          match m.assign out r with                                   -- 324
          | (.error e, m) => (.error e, m)
          | (.ok _, m) => (.ok r, m)

end Npplus.Basic
