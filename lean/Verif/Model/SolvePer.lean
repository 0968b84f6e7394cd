import Verif.Np
import Verif.Spec.Banded
import Mathlib.Data.Finset.Card

/-!
# Model of npplus/solveper.py

Trailing axes of `b` are in the module `V`.  `scipy.linalg.solve_banded` and `scipy.linalg.solve` are
parameters; `ScipyOK` is all that is assumed about them.  The overwrite/check_finite keywords are not
modelled.
-/

namespace Npplus

variable {K : Type} [Field K]

/-- The two external linear solvers. -/
structure Scipy (K : Type) [Field K] : Type 1 where
  /-- `scipy.linalg.solve_banded((l, u), ab, b)` for consistent shapes (`n` unknowns) -/
  banded : {V : Type} → [AddCommGroup V] → [Module K V] → (l u n : ℕ) → (ℕ → ℕ → K) → (ℕ → V) →
    Except PyErr (ℕ → V)
  /-- `scipy.linalg.solve(a, b)`, `n × n` -/
  dense : {V : Type} → [AddCommGroup V] → [Module K V] → (n : ℕ) → (ℕ → ℕ → K) → (ℕ → V) →
    Except PyErr (ℕ → V)

/-- The contract of the solvers: the returned value is a solution, a nonsingular system is solved, and
a singular one is rejected with LinAlgError. -/
structure ScipyOK (S : Scipy K) : Prop where
  banded_sound : ∀ {V : Type} [AddCommGroup V] [Module K V] (l u n : ℕ) (ab : ℕ → ℕ → K) (b x : ℕ → V),
    S.banded l u n ab b = .ok x → Spec.Solves n (Spec.bandMat l u ab) x b
  banded_complete : ∀ {V : Type} [AddCommGroup V] [Module K V] (l u n : ℕ) (ab : ℕ → ℕ → K) (b : ℕ → V),
    Spec.Nonsing n (Spec.bandMat l u ab) → ∃ x, S.banded l u n ab b = .ok x
  banded_singular : ∀ {V : Type} [AddCommGroup V] [Module K V] (l u n : ℕ) (ab : ℕ → ℕ → K) (b : ℕ → V),
    ¬ Spec.Nonsing n (Spec.bandMat l u ab) → S.banded l u n ab b = .error .linAlgError
  dense_sound : ∀ {V : Type} [AddCommGroup V] [Module K V] (n : ℕ) (a : ℕ → ℕ → K) (b x : ℕ → V),
    S.dense n a b = .ok x → Spec.Solves n a x b
  dense_complete : ∀ {V : Type} [AddCommGroup V] [Module K V] (n : ℕ) (a : ℕ → ℕ → K) (b : ℕ → V),
    Spec.Nonsing n a → ∃ x, S.dense n a b = .ok x
  dense_singular : ∀ {V : Type} [AddCommGroup V] [Module K V] (n : ℕ) (a : ℕ → ℕ → K) (b : ℕ → V),
    ¬ Spec.Nonsing n a → S.dense n a b = .error .linAlgError

/-- Number of elements of the slice `[start:stop:step]` of an array of size `N` (`0 < step`). -/
def sliceLen (N start stop step : ℕ) : ℕ :=
  if start < min stop N then (min stop N - start - 1) / step + 1 else 0

/-- `a[start:stop:step] = d` on a flat array of size `N`, `d` an array of length `len`:
ValueError when the number of elements differs (a one-element `d` is broadcast). -/
def strideSet (N : ℕ) (a : ℕ → K) (start stop step len : ℕ) (d : ℕ → K) : Except PyErr (ℕ → K) :=
  let cnt := sliceLen N start stop step
  if cnt = len then
    .ok fun f => if start ≤ f ∧ (f - start) % step = 0 ∧ (f - start) / step < cnt then
      d ((f - start) / step) else a f
  else if len = 1 then
    .ok fun f => if start ≤ f ∧ (f - start) % step = 0 ∧ (f - start) / step < cnt then d 0 else a f
  else .error .valueError

/-- solveper.py:111-123 `_diag_to_norm`.  (For more than `n` upper diagonals the python expression
`n-i-1` goes negative; the model is meant for `u ≤ n`.) -/
def diagToNorm (l u : ℕ) (ab : Arr2 K) : Except PyErr (Arr2 K) :=
  if ab.m ≠ u + 1 + l then .error .valueError else
  let n := ab.n
  -- 123-124: a = diag(ab[u]), flat
  let a1 : ℕ → K := fun f => if f / n = f % n then ab.get u (f % n) else 0
  -- 125-126
  let up := (List.range u).foldlM (fun a1 i =>
    strideSet (n * n) a1 (i + 1) (n + n * (n - i - 1)) (n + 1) (n - (i + 1))
      (fun t => ab.get (u - 1 - i) (i + 1 + t))) a1
  -- 127-128
  let lo := up.bind fun a1 => (List.range (ab.m - (u + 1))).foldlM (fun a1 i =>
    strideSet (n * n) a1 ((i + 1) * n) (n * n) (n + 1) (n - (1 + i))
      (fun t => ab.get (u + 1 + i) t)) a1
  lo.map fun a1 => ⟨n, n, fun i j => a1 (i * n + j)⟩

/-- `ab[r0:, c0:]` with the shape `(m, n)`. -/
def Arr2.sub (ab : Arr2 K) (r0 c0 m n : ℕ) : Arr2 K := ⟨m, n, fun i j => ab.get (r0 + i) (c0 + j)⟩

/-- `solve_banded` with its shape checks (ValueError); `b` has `nb` rows. -/
def solveBanded {V : Type} [AddCommGroup V] [Module K V] (S : Scipy K) (l u : ℕ) (ab : Arr2 K) (nb : ℕ)
    (b : ℕ → V) : Except PyErr (ℕ → V) :=
  if ab.n ≠ nb then .error .valueError
  else if l + u + 1 ≠ ab.m then .error .valueError
  else S.banded l u ab.n ab.get b

/-- solveper.py:78-82: the corner matrix. -/
def cornMat (l u n : ℕ) (ab : Arr2 K) : Except PyErr (ℕ → ℕ → K) :=
  let up : Except PyErr (ℕ → ℕ → K) := if u ≠ 0 then
      (diagToNorm (u - 1) 0 (ab.sub 0 0 u u)).map fun d i j =>
        if l ≤ i ∧ j < u then d.get (i - l) j else 0
    else .ok fun _ _ => 0
  up.bind fun c => if l ≠ 0 then
      (diagToNorm 0 (l - 1) (ab.sub (ab.m - l) (n - l) l l)).map fun d i j =>
        if i < l ∧ u ≤ j then d.get i (j - u) else c i j
    else .ok c

/-- solveper.py:89-92: `bb`. -/
def bbMat (K : Type) [Field K] (l u n : ℕ) (i : ℕ) : ℕ → K := fun j =>
  if i < l ∧ j < l then (if i = j then 1 else 0)
  else if u ≠ 0 ∧ n - u ≤ i ∧ l ≤ j then (if i - (n - u) = j - l then 1 else 0) else 0

/-- `numpy.roll(row, s)[j] = row[(j - s) mod n]`: the source index. -/
def rollIdx (n : ℕ) (s : ℤ) (j : ℕ) : ℕ := (((j : ℤ) - s) % n).toNat

/-- solveper.py:98: the positions where `roll(arange(n) < lpu, -l)` is true. -/
def maskList (l u n : ℕ) : List ℕ := (List.range n).filter fun i => rollIdx n (-l) i < l + u

/-- solveper.py:24-108 `solve_periodic((l, u), ab, b)`.  For `n < l+u` some step of the code raises
because of inconsistent shapes (at the latest `corn.dot(xx[mask])`); modelled as ValueError at the start.
An empty array raises IndexError at line 68. -/
def solvePeriodic {V : Type} [AddCommGroup V] [Module K V] (S : Scipy K) (l u : ℕ) (ab : Arr2 K) (nb : ℕ)
    (b : ℕ → V) : Except PyErr (ℕ → V) := do
  let n := ab.n
  let lpu := l + u
  if n = 0 ∨ nb = 0 then throw .indexError
  if n < lpu then throw .valueError
  let corn ← cornMat l u n ab
  let xx ← solveBanded S l u ab nb b
  let xy ← solveBanded S l u ab n (bbMat K l u n)
  let sel := fun k => (maskList l u n).getD k 0
  let acx := fun i => ∑ k ∈ Finset.range lpu, corn i k • xx (sel k)
  let acy := fun i j => ∑ k ∈ Finset.range lpu, corn i k * xy (sel k) j
  let p ← S.dense lpu (fun i j => (if i = j then 1 else 0) + acy i j) acx
  pure fun i => xx i - ∑ k ∈ Finset.range lpu, xy i k • p k

/-- solveper.py:185-196 `_solves_symgen` (`ab` with `u+1` rows). -/
def symgen (u : ℕ) (ab : Arr2 K) (lower : Bool) : Arr2 K :=
  let n := ab.n
  if lower then
    ⟨2 * u + 1, n, fun r j => if r < u then ab.get (u - r) (rollIdx n ((u - r : ℕ) : ℤ) j)
      else ab.get (r - u) j⟩
  else
    ⟨2 * u + 1, n, fun r j => if r < u + 1 then ab.get r j
      else ab.get (u - 1 - (r - (u + 1))) (rollIdx n (-1 - ((r - (u + 1) : ℕ) : ℤ)) j)⟩

/-- solveper.py:126-151 `solves_periodic(ab, b, lower=)`. -/
def solvesPeriodic {V : Type} [AddCommGroup V] [Module K V] (S : Scipy K) (ab : Arr2 K) (nb : ℕ)
    (b : ℕ → V) (lower : Bool) : Except PyErr (ℕ → V) :=
  solvePeriodic S (ab.m - 1) (ab.m - 1) (symgen (ab.m - 1) ab lower) nb b

/-- solveper.py:154-182 `solves_banded(ab, b, lower=)`. -/
def solvesBanded {V : Type} [AddCommGroup V] [Module K V] (S : Scipy K) (ab : Arr2 K) (nb : ℕ)
    (b : ℕ → V) (lower : Bool) : Except PyErr (ℕ → V) :=
  solveBanded S (ab.m - 1) (ab.m - 1) (symgen (ab.m - 1) ab lower) nb b

end Npplus
