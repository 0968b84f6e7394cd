import Verif.Model.Lsq
import Verif.Spec.Basic

/-!
# Specification vocabulary: least squares
-/

namespace Npplus.Spec
variable {K : Type} [Field K] [LinearOrder K]

/-- `d` is a thin singular value decomposition of `m` (what `scipy.linalg.svd(m, full_matrices=False)` returns). -/
structure IsSVD {nc N : ℕ} (m : Matrix (Fin nc) (Fin N) K) (d : SVD K nc N) : Prop where
  eq : ∀ i t, m i t = ∑ j, d.u i j * d.s j * d.v j t
  uu : ∀ j j', ∑ i, d.u i j * d.u i j' = if j = j' then 1 else 0
  vv : ∀ j j', ∑ t, d.v j t * d.v j' t = if j = j' then 1 else 0
  nonneg : ∀ j, 0 ≤ d.s j
  anti : ∀ j j', j ≤ j' → d.s j' ≤ d.s j

/-- The model with coefficients `q` at the element `idx` of the data: `sum_i q_i m_i`. -/
def modelAt (mdl : List (NdArr K)) (q : Fin mdl.length → K) (idx : List ℕ) : K := ∑ i, q i * bget (mdl.get i) idx

/-- multi-index of the `t`-th datum in C order -/
def at_ (data : NdArr K) (t : ℕ) : List ℕ := NdArr.unravel data.shape t

/-- `sum(((sum_i q_i m_i - data)/errs)**2)` over all the data; `errs` is a scalar or has one element per datum -/
def chisq (data : NdArr K) (mdl : List (NdArr K)) (errs : NdArr K) (q : Fin mdl.length → K) : K :=
  ∑ t : Fin data.shape.prod, ((modelAt mdl q (at_ data t) - data.get (at_ data t)) / bget errs [(t : ℕ)]) ^ 2

/-- Every model divided by the errors: the matrix whose singular values `regress` looks at. -/
def designMatrix (data : NdArr K) (mdl : List (NdArr K)) (errs : NdArr K) :
    Matrix (Fin mdl.length) (Fin data.shape.prod) K :=
  fun i t => bget (mdl.get i) (at_ data t) / bget errs [(t : ℕ)]

/-- Euclidean norm squared -/
def normSq {n : ℕ} (q : Fin n → K) : K := ∑ i, q i ^ 2

end Npplus.Spec

namespace Npplus.Spec
variable {K : Type} [Field K] [LinearOrder K]

/-- Element `i` of an argument given as one value for all parameters or one value per parameter. -/
def elem1 (l : List K) (i : ℕ) : K := if l.length = 1 then l.getD 0 0 else l.getD i 0

/-- Parameter `i` is one of the `pfix` indices (negative ones count from the end). -/
def Fixed (A : LmArgs K) (i : ℕ) : Prop := ∃ l, A.pfix = some l ∧ ∃ k ∈ l, k = (i : ℤ) ∨ k + A.p0.length = (i : ℤ)

/-- `q` is a parameter vector within `[pmin, pmax]`. -/
def InBounds (A : LmArgs K) (q : List K) : Prop :=
  q.length = A.p0.length ∧ ∀ i < A.p0.length, (∀ l, A.pmin = some l → elem1 l i ≤ q.getD i 0) ∧
    ∀ l, A.pmax = some l → q.getD i 0 ≤ elem1 l i

/-- `q` agrees with the initial guess in the fixed parameters. -/
def KeepsFixed (A : LmArgs K) (q : List K) : Prop :=
  q.length = A.p0.length ∧ ∀ i < A.p0.length, Fixed A i → q.getD i 0 = A.p0.getD i 0

/-- The finite difference step sizes are not negative (`prel` and `pabs` default to the configuration). -/
def StepsNonneg (A : LmArgs K) : Prop :=
  ∀ i < A.p0.length, 0 ≤ elem1 (A.prel.getD [A.cfg.prel]) i ∨ 0 ≤ elem1 (A.pabs.getD [A.cfg.pabs]) i

/-- `solve` returns a vector of the length of its right hand side. -/
def SolveLen (solve : List (List K) → List K → Except PyErr (List K)) : Prop :=
  ∀ A b x, solve A b = .ok x → x.length = b.length

end Npplus.Spec
