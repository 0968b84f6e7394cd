import Verif.Lemmas.MapL
import Verif.Props.SolvePer

/-!
# The constructor and `spline` commute with linear maps of the values
-/

set_option linter.unusedSectionVars false
namespace Npplus
open Spec

variable {K : Type} [Field K] {V W : Type} [AddCommGroup V] [Module K V] [AddCommGroup W] [Module K W] (φ : V →ₗ[K] W)

/-! ### the constructor -/

namespace PwPoly
variable [LinearOrder K]

theorem matDot_map {m : ℕ} (A : Matrix (Fin m) (Fin m) K) (v : List V) : matDot A (v.map φ) = (matDot A v).map φ := by
  unfold matDot
  rw [List.map_ofFn]
  congr 1
  funext i
  simp only [Function.comp, map_list_sum, List.map_map, getD_map_zero]
  congr 1
  apply List.map_congr_left
  intro j _
  simp

theorem mapIdx_smul_map (f : ℕ → K) (l : List V) : (l.map φ).mapIdx (fun k v => f k • v) = (l.mapIdx (fun k v => f k • v)).map φ := by
  apply List.ext_getElem (by simp)
  intro i h1 h2
  simp

theorem hermite_map (inv : InvFun K) (h : ℕ) (dx : K) (left rght z : List V) :
    hermite inv h dx (left.map φ) (rght.map φ) (z.map φ) = (hermite inv h dx left rght z).map φ := by
  unfold hermite
  simp only [List.map_append]
  have e : left.map φ ++ List.replicate (h + 1) 0 ++ z.map φ = (left ++ List.replicate (h + 1) 0 ++ z).map φ := by simp
  rw [e, polyddx_map, List.zipWith_map]
  have e2 : List.zipWith (fun a b => φ a - φ b) rght (polyddx (left ++ List.replicate (h + 1) 0 ++ z) dx h) =
      (List.zipWith (· - ·) rght (polyddx (left ++ List.replicate (h + 1) 0 ++ z) dx h)).map φ := by
    rw [List.map_zipWith]; simp
  rw [e2, mapIdx_smul_map, matDot_map, mapIdx_smul_map]

theorem col_map (args : List (List V)) (i : ℕ) : col (args.map (List.map φ)) i = (col args i).map φ := by
  simp only [col, List.map_map]
  apply List.map_congr_left
  intro r _
  exact getD_map_zero φ r i

theorem divFact_map (args : List (List V)) : divFact K (args.map (List.map φ)) = (divFact K args).map (List.map φ) := by
  unfold divFact
  apply List.ext_getElem (by simp)
  intro i h1 h2
  simp

theorem initPieces_map (inv : InvFun K) (xk : List K) (args : List (List V)) (z : Option (List V)) :
    initPieces inv xk (args.map (List.map φ)) (z.map (List.map φ)) = (initPieces inv xk args z).mapL φ := by
  unfold initPieces mapL
  simp only [List.length_map, divFact_map, col_map]
  cases z with
  | none =>
    simp only [Option.map_none, Option.isSome_none, List.map_append, List.map_map, List.map_replicate, List.map_cons, List.map_nil, map_zero]
    congr 3
    apply List.map_congr_left
    intro i _
    exact hermite_map φ inv _ _ _ _ []
  | some r =>
    simp only [Option.map_some, Option.isSome_some, List.map_append, List.map_map, List.map_replicate, List.map_cons, List.map_nil, map_zero]
    congr 3
    apply List.map_congr_left
    intro i _
    rw [Function.comp, ← hermite_map, List.map_cons, List.map_nil, ← getD_map_zero, List.map_map]
    congr 3
    apply List.map_congr_left
    intro v _
    simp

theorem ragged_map (args : List (List V)) : Ragged (args.map (List.map φ)) ↔ Ragged args := by
  unfold Ragged
  have : ((args.map (List.map φ)).headD []).length = (args.headD []).length := by cases args <;> simp
  rw [this]
  simp

theorem initBody_map (inv : InvFun K) (xk : List K) (args : List (List V)) (z : Option (List V)) :
    initBody inv xk (args.map (List.map φ)) (z.map (List.map φ)) = (initBody inv xk args z).map (mapL φ) := by
  have h1 : (args.map (List.map φ)).headD [] = (args.headD []).map φ := by cases args <;> simp
  unfold initBody
  simp only [ragged_map, h1, List.map_eq_nil_iff, List.length_map, initPieces_map]
  by_cases a1 : Ragged args
  · simp only [if_pos a1]; rfl
  simp only [if_neg a1]
  by_cases a2 : xk = [] ∨ args.headD [] = []
  · simp only [if_pos a2]; rfl
  simp only [if_neg a2]
  by_cases a3 : (args.headD []).length = xk.length + 1
  · simp only [if_pos a3, Except.map, mapL, List.map_map]
    congr 2
    apply List.map_congr_left
    intro i _
    exact col_map φ args i
  simp only [if_neg a3]
  by_cases a4 : (args.headD []).length ≠ xk.length
  · simp only [if_pos a4]; rfl
  simp only [if_neg a4]
  by_cases a5 : xk.length < 2
  · simp only [if_pos a5]; rfl
  simp only [if_neg a5]; rfl

theorem initInc_map (inv : InvFun K) (xk : List K) (args : List (List V)) :
    initInc inv xk (args.map (List.map φ)) = (initInc inv xk args).map (mapL φ) := by
  unfold initInc
  rw [List.getLast?_map]
  cases args.getLast? with
  | none => rfl
  | some z =>
    simp only [Option.map_some, List.length_map, ← List.map_dropLast, List.map_eq_nil_iff]
    by_cases a1 : z.length + 1 = xk.length
    · simp only [if_pos a1]
      by_cases a2 : args.dropLast = []
      · simp only [if_pos a2]
        have := initBody_map φ inv xk [histRow z] none
        have e : List.map φ (histRow z) = histRow (List.map φ z) := by cases z <;> simp [histRow]
        rw [List.map_singleton, e] at this
        exact this
      · simp only [if_neg a2]
        exact initBody_map φ inv xk args.dropLast (some z)
    · simp only [if_neg a1]
      exact initBody_map φ inv xk args none

theorem init_map (inv : InvFun K) (xk : List K) (args : List (List V)) :
    init inv xk (args.map (List.map φ)) = (init inv xk args).map (mapL φ) := by
  unfold init
  by_cases a1 : 1 < xk.length ∧ xk.getD (xk.length - 1) 0 < xk.getD 0 0
  · simp only [if_pos a1, ragged_map]
    by_cases a2 : Ragged args
    · simp only [if_pos a2]; rfl
    · simp only [if_neg a2]
      rw [← initInc_map, List.map_map, List.map_map]
      congr 1
      apply List.map_congr_left
      intro r _
      simp [List.map_reverse]
  · simp only [if_neg a1]
    exact initInc_map φ inv xk args

end PwPoly

/-! ### the solvers -/

/-- The same exception, or solutions of which the second is `φ` of the first. -/
def RelSol (n : ℕ) : Except PyErr (ℕ → V) → Except PyErr (ℕ → W) → Prop
  | .ok z, .ok z' => ∀ i < n, z' i = φ (z i)
  | .error e, .error e' => e = e'
  | _, _ => False

theorem Spec.Solves.map {n : ℕ} {a : ℕ → ℕ → K} {x b : ℕ → V} (h : Solves n a x b) : Solves n a (fun i => φ (x i)) (fun i => φ (b i)) := by
  intro i hi
  beta_reduce
  rw [← h i hi, map_sum]
  simp

theorem Spec.Solves.unique {n : ℕ} {a : ℕ → ℕ → K} (hn : Nonsing n a) {x x' b b' : ℕ → V} (h : Solves n a x b) (h' : Solves n a x' b')
    (hb : ∀ i < n, b i = b' i) : ∀ i < n, x i = x' i := by
  intro i hi
  set A : Matrix (Fin n) (Fin n) K := Matrix.of fun i j => a i j with hA
  have hinv : A⁻¹ * A = 1 := Matrix.nonsing_inv_mul A (isUnit_iff_ne_zero.2 hn)
  have key : ∀ {x b : ℕ → V}, Solves n a x b → x i = ∑ k : Fin n, A⁻¹ ⟨i, hi⟩ k • b k := by
    intro x b h
    have h1 : ∀ k : Fin n, b k = ∑ j : Fin n, A k j • x j := fun k => by
      rw [← h k k.2, ← Fin.sum_univ_eq_sum_range (fun j => a k j • x j) n]
      rfl
    simp only [h1, Finset.smul_sum, smul_smul]
    rw [Finset.sum_comm]
    simp only [← Finset.sum_smul]
    have h2 : ∀ j : Fin n, ∑ k : Fin n, A⁻¹ ⟨i, hi⟩ k * A k j = (1 : Matrix (Fin n) (Fin n) K) ⟨i, hi⟩ j := fun j => by
      rw [← hinv, Matrix.mul_apply]
    simp only [h2, Matrix.one_apply]
    rw [Finset.sum_eq_single ⟨i, hi⟩]
    · simp
    · intro j _ hj; rw [if_neg (Ne.symm hj), zero_smul]
    · simp
  rw [key h, key h']
  exact Finset.sum_congr rfl fun k _ => by rw [hb k k.2]

theorem solveBanded_rel {S : Scipy K} (hS : ScipyOK S) (l u : ℕ) (ab : Arr2 K) (nb : ℕ) {b : ℕ → V} {b' : ℕ → W}
    (hb : ∀ i < nb, b' i = φ (b i)) : RelSol φ nb (solveBanded S l u ab nb b) (solveBanded S l u ab nb b') := by
  unfold solveBanded
  by_cases h1 : ab.n ≠ nb
  · simp only [if_pos h1]; rfl
  simp only [if_neg h1]
  by_cases h2 : l + u + 1 ≠ ab.m
  · simp only [if_pos h2]; rfl
  simp only [if_neg h2]
  by_cases hn : Nonsing ab.n (bandMat l u ab.get)
  · obtain ⟨z, hz⟩ := hS.banded_complete l u ab.n ab.get b hn
    obtain ⟨z', hz'⟩ := hS.banded_complete l u ab.n ab.get b' hn
    rw [hz, hz']
    push Not at h1
    have s1 := (hS.banded_sound _ _ _ _ _ _ hz).map φ
    have s2 := hS.banded_sound _ _ _ _ _ _ hz'
    intro i hi
    exact s2.unique hn s1 (fun i hi => hb i (h1 ▸ hi)) i (h1 ▸ hi)
  · rw [hS.banded_singular l u ab.n ab.get b hn, hS.banded_singular l u ab.n ab.get b' hn]; rfl

theorem solvePeriodic_rel {S : Scipy K} (hS : ScipyOK S) (l u : ℕ) (ab : Arr2 K) (nb : ℕ) (hm : ab.m = l + u + 1) (hnb : nb = ab.n)
    {b : ℕ → V} {b' : ℕ → W}
    (hb : ∀ i < nb, b' i = φ (b i)) : RelSol φ nb (solvePeriodic S l u ab nb b) (solvePeriodic S l u ab nb b') := by
  subst hnb
  by_cases h0 : ab.n = 0
  · unfold solvePeriodic
    simp only [bind, Except.bind, pure, Except.pure, throw, throwThe, MonadExceptOf.throw, h0, true_or, if_true]
    rfl
  by_cases hlu : ab.n < l + u
  · unfold solvePeriodic
    simp only [bind, Except.bind, pure, Except.pure, throw, throwThe, MonadExceptOf.throw, h0, or_self, if_false, if_pos hlu]
    rfl
  push Not at hlu
  by_cases h1 : Nonsing ab.n (bandMat l u ab.get) ∧ Nonsing ab.n (cyclicMat ab.n l u ab.get)
  · obtain ⟨z, hz⟩ := C37_succeeds hS b h0 hlu hm h1.1 h1.2
    obtain ⟨z', hz'⟩ := C37_succeeds hS b' h0 hlu hm h1.1 h1.2
    rw [hz, hz']
    exact (C37_solve_periodic hS hz').2.2.unique h1.2 ((C37_solve_periodic hS hz).2.2.map φ) hb
  · have e1 := (C37_outcome hS b h0 hlu hm).2 (fun h => h1 ((C37_outcome hS b h0 hlu hm).1.1 h))
    have e2 := (C37_outcome hS b' h0 hlu hm).2 (fun h => h1 ((C37_outcome hS b' h0 hlu hm).1.1 h))
    rw [e1, e2]; rfl

/-! ### spline -/

namespace Spl
variable [LinearOrder K]

/-- `φ` applied to boundary values. -/
abbrev bcMap (l : List (Option V)) : List (Option W) := l.map (Option.map φ)

theorem bcMap_getD_isNone (l : List (Option V)) (i : ℕ) : ((bcMap φ l).getD i none).isNone = (l.getD i none).isNone := by
  have := List.getD_map (f := Option.map φ) (l := l) (n := i) (d := none)
  simp only [Option.map_none] at this
  rw [bcMap, this, Option.isNone_map]

theorem bcMap_set (l : List (Option V)) (i : ℕ) : (bcMap φ l).set i (some 0) = bcMap φ (l.set i (some 0)) := by
  simp [bcMap, List.map_set]

theorem nspec_map (l : List (Option V)) : nspec (bcMap φ l) = nspec l := by
  simp only [nspec, bcMap, List.countP_map]
  congr 1
  funext o
  cases o <;> rfl

theorem fillLoop_map : ∀ (i1 : ℕ) (missing : ℤ) (lo hi : List (Option V)) (nlo : ℕ),
    fillLoop i1 missing (bcMap φ lo) (bcMap φ hi) nlo =
      (fillLoop i1 missing lo hi nlo).map fun r => (bcMap φ r.1, bcMap φ r.2.1, r.2.2)
  | 0, missing, lo, hi, nlo => by
    unfold fillLoop
    split <;> rfl
  | i + 1, missing, lo, hi, nlo => by
    unfold fillLoop
    by_cases h0 : missing = 0
    · simp only [if_pos h0]; rfl
    simp only [if_neg h0, bcMap_getD_isNone]
    by_cases h1 : (lo.getD i none).isNone = true
    · simp only [h1, if_true, bcMap_set]
      by_cases h2 : missing - 1 ≠ 0 ∧ (hi.getD i none).isNone = true
      · simp only [if_pos h2]; exact fillLoop_map i _ _ _ _
      · simp only [if_neg h2]; exact fillLoop_map i _ _ _ _
    · simp only [h1, Bool.false_eq_true, if_false]
      by_cases h2 : missing ≠ 0 ∧ (hi.getD i none).isNone = true
      · simp only [if_pos h2, bcMap_set]; exact fillLoop_map i _ _ _ _
      · simp only [if_neg h2]; exact fillLoop_map i _ _ _ _

theorem fillBC_map (n : ℕ) (lo hi : List (Option V)) :
    fillBC n (bcMap φ lo) (bcMap φ hi) = (fillBC n lo hi).map fun r => (bcMap φ r.1, bcMap φ r.2.1, r.2.2) := by
  unfold fillBC
  have e : ∀ (l : List (Option V)) k, bcMap φ l ++ List.replicate k none = bcMap φ (l ++ List.replicate k none) := by
    intro l k; simp [bcMap]
  simp only [List.length_map, e, nspec_map]
  split
  · exact fillLoop_map φ _ _ _ _ _
  · rfl

theorem hiLoop_map (n nun : ℕ) (dxl : K) : ∀ (l : List (Option V)) (i k : ℕ) (ab : ℕ → ℕ → K) (b : ℕ → V),
    hiLoop n nun dxl (bcMap φ l) i k (ab, fun t => φ (b t)) =
      ((hiLoop n nun dxl l i k (ab, b)).1, fun t => φ ((hiLoop n nun dxl l i k (ab, b)).2 t))
  | [], _, _, _, _ => rfl
  | none :: l, i, k, ab, b => by
    simp only [bcMap, List.map_cons, Option.map_none, hiLoop]
    exact hiLoop_map n nun dxl l (i + 1) k ab b
  | some v :: l, i, k, ab, b => by
    simp only [bcMap, List.map_cons, Option.map_some, hiLoop]
    rw [← hiLoop_map n nun dxl l (i + 1) (k + 1)]
    congr 2
    funext t
    simp only [Function.update_apply]
    split <;> simp

theorem loLoop_map (n : ℕ) (dx0 : K) : ∀ (l : List (Option V)) (i k j : ℕ) (ab : ℕ → ℕ → K) (b : ℕ → V),
    loLoop n dx0 (bcMap φ l) i k j (ab, fun t => φ (b t)) =
      ((loLoop n dx0 l i k j (ab, b)).1, fun t => φ ((loLoop n dx0 l i k j (ab, b)).2 t))
  | [], _, _, _, _, _ => rfl
  | none :: l, i, k, j, ab, b => by
    simp only [bcMap, List.map_cons, Option.map_none, loLoop]
    exact loLoop_map n dx0 l (i + 1) k j ab b
  | some v :: l, i, k, j, ab, b => by
    simp only [bcMap, List.map_cons, Option.map_some, loLoop]
    rw [← loLoop_map n dx0 l (i + 1) (k - 1) (j - 1)]
    congr 2
    funext t
    simp only [Function.update_apply]
    split <;> simp

theorem baseB_map (n : ℕ) (y : List V) : baseB n (y.map φ) = fun i => φ (baseB n y i) := by
  funext i
  simp only [baseB, getD_map_zero]
  split <;> simp

theorem system_map (n : ℕ) (x : List K) (y : List V) (lo hi : List (Option V)) (nlo : ℕ) :
    system n x (y.map φ) (bcMap φ lo) (bcMap φ hi) nlo = ((system n x y lo hi nlo).1, fun i => φ ((system n x y lo hi nlo).2 i)) := by
  unfold system
  simp only [baseB_map, hiLoop_map, List.map_reverse.symm, bcMap]
  have e : ∀ (b : ℕ → V) (s : ℕ), (if nlo ≠ 0 then fun i => φ (b (rollIdx s (nlo : ℤ) i)) else fun i => φ (b i)) =
      fun i => φ ((if nlo ≠ 0 then fun i => b (rollIdx s (nlo : ℤ) i) else b) i) := by
    intro b s; split <;> rfl
  rw [e]
  exact loLoop_map φ n _ _ _ _ _ _ _

theorem assemble_map {n : ℕ} {x : List K} {y : List V} {z : ℕ → V} {z' : ℕ → W} (hx : 2 ≤ x.length) (h : ∀ i < (x.length - 1) * n, z' i = φ (z i)) :
    assemble n x (y.map φ) z' = (assemble n x y z).mapL φ := by
  have hin : ∀ j, j < x.length - 1 → inner n x (y.map φ) z' j = (inner n x y z j).map φ := by
    intro j hj
    simp only [inner, getD_map_zero, List.map_cons, List.map_map]
    congr 1
    apply List.map_congr_left
    intro q hq
    rw [List.mem_range] at hq
    have : j * n + q < (x.length - 1) * n := by
      calc j * n + q < j * n + n := by omega
        _ = (j + 1) * n := by ring
        _ ≤ _ := Nat.mul_le_mul_right n (by omega)
    simp [h _ this]
  simp only [assemble, PwPoly.mapL, List.map_append, List.map_map, List.map_cons, List.map_nil]
  rw [hin 0 (by omega), hin (x.length - 1 - 1) (by omega), polyddx_map]
  congr 3
  apply List.map_congr_left
  intro j hj
  exact hin j (List.mem_range.1 hj)

theorem nonper_map (inv : InvFun K) {S : Scipy K} (hS : ScipyOK S) {x : List K} (hx : 2 ≤ x.length) (y : List V) (n : ℕ) (lo hi : List (Option V))
    (e : ℕ × ℕ) : nonper inv S x (y.map φ) n (bcMap φ lo) (bcMap φ hi) e = (nonper inv S x y n lo hi e).map (PwPoly.mapL φ) := by
  unfold nonper
  simp only [bind, Except.bind, pure, Except.pure]
  by_cases hn : n < 2
  · simp only [if_pos hn]
    have := PwPoly.init_map φ inv x [y]
    rw [List.map_cons, List.map_nil] at this
    rw [this]
    cases PwPoly.init inv x [y] with
    | error e => rfl
    | ok p => simp only [Except.map, linear_map]
  simp only [if_neg hn, fillBC_map]
  cases fillBC n lo hi with
  | error e => rfl
  | ok r =>
    obtain ⟨lo', hi', nlo⟩ := r
    simp only [Except.map, system_map]
    have := solveBanded_rel φ hS (1 + nlo) (n - 1 - nlo) ⟨n + 1, (x.length - 1) * n, (system n x y lo' hi' nlo).1⟩ ((x.length - 1) * n)
      (b := (system n x y lo' hi' nlo).2) (b' := fun i => φ ((system n x y lo' hi' nlo).2 i)) (fun _ _ => rfl)
    revert this
    generalize solveBanded S (1 + nlo) (n - 1 - nlo) ⟨n + 1, (x.length - 1) * n, (system n x y lo' hi' nlo).1⟩ ((x.length - 1) * n)
      (system n x y lo' hi' nlo).2 = r
    generalize solveBanded S (1 + nlo) (n - 1 - nlo) ⟨n + 1, (x.length - 1) * n, (system n x y lo' hi' nlo).1⟩ ((x.length - 1) * n)
      (fun i => φ ((system n x y lo' hi' nlo).2 i)) = r'
    intro this
    match r, r', this with
    | .ok z, .ok z', h => simp only [assemble_map φ hx h, truncEnds_map]
    | .error e, .error e', h => simp only [show e = e' from h]

theorem periodic_map (inv : InvFun K) {S : Scipy K} (hS : ScipyOK S) {x : List K} (hx : 2 ≤ x.length) (y : List V) {n : ℕ} (hn0 : n ≠ 0) :
    periodic inv S x (y.map φ) n = (periodic inv S x y n).map (PerPwPoly.mapL φ) := by
  unfold periodic
  simp only [bind, Except.bind, pure, Except.pure, getD_map_zero, List.length_map]
  rw [← List.map_set]
  set y' := y.set (y.length - 1) (y.getD 0 0)
  by_cases hn : n < 2
  · simp only [if_pos hn]
    have := PwPoly.init_map φ inv x [y']
    rw [List.map_cons, List.map_nil] at this
    rw [this]
    cases PwPoly.init inv x [y'] with
    | error e => rfl
    | ok p =>
      simp only [Except.map, PerPwPoly.new_map]
      cases PerPwPoly.new p with
      | error e => rfl
      | ok P => simp only [PerPwPoly.mapL, linear_map]
  simp only [if_neg hn, baseB_map]
  have := solvePeriodic_rel φ hS 1 (n - 1) ⟨n + 1, (x.length - 1) * n, baseAB n (x.length - 1) (width x)⟩ ((x.length - 1) * n)
      (by simp only; omega) rfl (b := baseB n y') (b' := fun i => φ (baseB n y' i)) (fun _ _ => rfl)
  revert this
  generalize solvePeriodic S 1 (n - 1) ⟨n + 1, (x.length - 1) * n, baseAB n (x.length - 1) (width x)⟩ ((x.length - 1) * n)
      (baseB n y') = r
  generalize solvePeriodic S 1 (n - 1) ⟨n + 1, (x.length - 1) * n, baseAB n (x.length - 1) (width x)⟩ ((x.length - 1) * n)
      (fun i => φ (baseB n y' i)) = r'
  intro this
  match r, r', this with
  | .ok z, .ok z', h => simp only [assemble_map φ hx h, PerPwPoly.new_map]
  | .error e, .error e', h => simp only [show e = e' from h]; rfl

end Spl

variable [LinearOrder K]

theorem spline_map (inv : InvFun K) {S : Scipy K} (hS : ScipyOK S) (x : List K) (y : List V) (n : ℕ) (lo hi : List (Option V))
    (per : Bool) (extrap : Option (ℕ × ℕ)) :
    spline inv S x (y.map φ) n (Spl.bcMap φ lo) (Spl.bcMap φ hi) per extrap = (spline inv S x y n lo hi per extrap).map (SplineOut.mapL φ) := by
  unfold spline
  simp only [bind, Except.bind, pure, Except.pure, throw, throwThe, MonadExceptOf.throw, List.length_map, ne_eq, List.map_eq_nil_iff]
  by_cases h1 : x.length < 2
  · simp only [if_pos h1]; rfl
  simp only [if_neg h1]
  by_cases h2 : ¬ y.length = x.length
  · simp only [if_pos h2]; rfl
  simp only [if_neg h2]
  by_cases h3 : (per = true) ∧ (¬ lo = [] ∨ ¬ hi = [] ∨ ¬ extrap = none)
  · simp only [if_pos h3]; rfl
  simp only [if_neg h3]
  by_cases hd : x.getD (x.length - 1) 0 < x.getD 0 0
  · simp only [hd, if_true, List.length_map]
    by_cases h4 : n = 0 ∨ n - 1 < hi.length ∨ n - 1 < lo.length
    · simp only [if_pos h4]; rfl
    simp only [if_neg h4]
    cases per
    · simp only [Bool.false_eq_true, if_false]
      rw [← List.map_reverse, Spl.nonper_map φ inv hS (by rw [List.length_reverse]; omega)]
      cases Spl.nonper inv S x.reverse y.reverse n hi lo _ <;> rfl
    · simp only [if_true]
      rw [← List.map_reverse, Spl.periodic_map φ inv hS (by rw [List.length_reverse]; omega) _ (by omega)]
      cases Spl.periodic inv S x.reverse y.reverse n <;> rfl
  · simp only [hd, if_false, List.length_map]
    by_cases h4 : n = 0 ∨ n - 1 < lo.length ∨ n - 1 < hi.length
    · simp only [if_pos h4]; rfl
    simp only [if_neg h4]
    cases per
    · simp only [Bool.false_eq_true, if_false]
      rw [Spl.nonper_map φ inv hS (by omega)]
      cases Spl.nonper inv S x y n lo hi _ <;> rfl
    · simp only [if_true]
      rw [Spl.periodic_map φ inv hS (by omega) _ (by omega)]
      cases Spl.periodic inv S x y n <;> rfl

end Npplus
