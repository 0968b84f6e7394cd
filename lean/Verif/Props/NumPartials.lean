import Verif.Lemmas.Mask
import Verif.Props.Levmar

/-!
# C47: numerical_partials
-/

set_option linter.unusedSectionVars false
namespace Npplus
open Npplus.Spec

namespace Spec
variable {K : Type} [Field K] [LinearOrder K]

/-- the documented step size of parameter `i`: `maximum(prel*absolute(p), pabs)` -/
def stepSize (prel pabs p : List K) (i : ℕ) : K := max (prel.getD i 0 * |p.getD i 0|) (pabs.getD i 0)

/-- A plain function of the parameters: no memory, no exception, `N` values. -/
def PureF (F : UserF K) (V : List K → List K) (N : ℕ) : Prop := (∀ log q, F.val log q = .ok (V q)) ∧ ∀ q, (V q).length = N

/-- The function used for the concrete cases below: `p ↦ [p0*p1, p0 + 3*p1]`. -/
def exFun (p : List K) : List K := [p.getD 0 0 * p.getD 1 0, p.getD 0 0 + 3 * p.getD 1 0]

/-- the corresponding plain Python function -/
def exUser : UserF K := ⟨false, fun _ p => .ok (exFun p), fun _ _ => .error .typeError⟩

end Spec

variable {K : Type} [Field K] [LinearOrder K] [IsStrictOrderedRing K]

theorem exUser_pure : PureF (exUser : UserF K) exFun 2 := ⟨fun _ _ => rfl, fun _ => rfl⟩

theorem partialsLoop_post {F : UserF K} {V : List K → List K} {N : ℕ} (hV : PureF F V N) (pfull f0 : List K)
    (hf0 : f0.length = N) (pmask : List Bool) (p : List K) :
    ∀ (ds : List K) (i : ℕ), Tri (fun _ => True) (partialsLoop F pfull f0 pmask p ds i) (fun rows =>
      rows.length = ds.length ∧ ∀ k < ds.length, ds.getD k 0 ≠ 0 ∧ rows.getD k [] = (List.zipWith (· - ·)
        (V (maskSet pmask (p.set (i + k) (p.getD (i + k) 0 + ds.getD k 0)) pfull)) f0).map (· / ds.getD k 0))
  | [], i => Tri.ret ⟨rfl, fun k hk => by simp at hk⟩
  | d :: ds, i => by
    unfold partialsLoop
    refine Tri.ite (fun _ => Tri.fail) fun hd => ?_
    refine Tri.bind (Tri.call trivial) fun v hv => ?_
    obtain ⟨log, hv⟩ := hv
    rw [hV.1] at hv
    have hv := Except.ok.inj hv
    refine Tri.bind (P := fun dv => dv = List.zipWith (· - ·) v f0)
      (Tri.lift fun dv hdv => bzip_length hdv (by rw [← hv, hV.2, hf0])) fun dv hdv => ?_
    refine Tri.bind (partialsLoop_post hV pfull f0 hf0 pmask p ds (i + 1)) fun rest hr => Tri.ret ⟨by simp [hr.1], ?_⟩
    intro k hk
    cases k with
    | zero =>
      refine ⟨hd, ?_⟩
      rw [List.getD_cons_zero, hdv, ← hv]; rfl
    | succ k =>
      have := hr.2 k (by simpa using hk)
      rw [List.getD_cons_succ, List.getD_cons_succ]
      rw [show i + (k + 1) = i + 1 + k by omega]
      exact this

/-- Every step is the documented step size, or its negative when the step would cross the upper bound. -/
theorem partialSteps_val {pfull : List K} {pmin pmax : Option (List K)} {prel pabs : List K} {pmask : List Bool}
    {dp : List K} (h : partialSteps pfull pmin pmax prel pabs pmask = .ok dp) (h1 : prel.length = pfull.length)
    (h2 : pabs.length = pfull.length) (h3 : pmask.length = pfull.length)
    (h4 : ∀ b, pmax = some b → b.length = pmask.countP id) : ∀ k < pmask.countP id,
      (∀ b, pmax = some b → b.getD k 0 < pfull.getD ((freeIdx pmask).getD k 0) 0 +
        stepSize prel pabs pfull ((freeIdx pmask).getD k 0) →
          dp.getD k 0 = -stepSize prel pabs pfull ((freeIdx pmask).getD k 0)) ∧
      ((∀ b, pmax = some b → pfull.getD ((freeIdx pmask).getD k 0) 0 +
        stepSize prel pabs pfull ((freeIdx pmask).getD k 0) ≤ b.getD k 0) →
          dp.getD k 0 = stepSize prel pabs pfull ((freeIdx pmask).getD k 0)) := by
  intro k hk
  have hk' : k < (freeIdx pmask).length := by rw [freeIdx_length]; exact hk
  set i := (freeIdx pmask).getD k 0 with hi
  have hil : i < pfull.length := by rw [← h3]; exact (freeIdx_lt hk').1
  set dq := maskGet pmask (List.zipWith max (List.zipWith (fun r x => r * |x|) prel pfull) pabs) with hdq
  have hz : dq.length = pmask.countP id := by
    rw [hdq, maskGet_length]
    simp [h1, h2, h3]
  have hqk : dq.getD k 0 = stepSize prel pabs pfull i := by
    rw [hdq, maskGet_getD 0 _ _ (by simp [h1, h2, h3]) k hk', ← hi,
      getD_zipWith2 _ _ _ i 0 0 _ (by simp [h1, hil]) (by rw [h2]; exact hil),
      getD_zipWith2 _ _ _ i 0 0 _ (by rw [h1]; exact hil) hil]
    rfl
  have hpl : (maskGet pmask pfull).length = pmask.countP id := maskGet_length _ _ h3
  have hpk : (maskGet pmask pfull).getD k 0 = pfull.getD i 0 := maskGet_getD 0 _ _ h3 k hk'
  unfold partialSteps at h
  cases hx : pmax with
  | none =>
    rw [hx] at h
    have h := Except.ok.inj h
    refine ⟨fun b hb => (by cases hb), fun _ => ?_⟩
    rw [← h, ← hdq]; exact hqk
  | some b =>
    have hbl := h4 b hx
    rw [hx] at h
    simp only [← hdq] at h
    set mask := List.zipWith (fun s m => decide (m < s)) (List.zipWith (· + ·) (maskGet pmask pfull) dq) b with hmask
    have hml : mask.length = pmask.countP id := by simp [hmask, hpl, hz, hbl]
    have hmi : mask.getD k false = decide (b.getD k 0 < pfull.getD i 0 + stepSize prel pabs pfull i) := by
      rw [hmask, getD_zipWith2 _ _ _ k 0 0 _ (by simp [hpl, hz, hk]) (by rw [hbl]; exact hk),
        getD_zipWith2 _ _ _ k 0 0 _ (by rw [hpl]; exact hk) (by rw [hz]; exact hk), hpk, hqk]
    set dr := List.zipWith (fun (b : Bool) d => if b then d * -1 else d) mask dq with hdr
    have hri : dr.getD k 0 = if mask.getD k false then dq.getD k 0 * -1 else dq.getD k 0 := by
      rw [hdr, getD_zipWith2 _ _ _ k false 0 _ (by rw [hml]; exact hk) (by rw [hz]; exact hk)]
    have hdp : dp = dr := by
      split_ifs at h with ha
      · cases hm : pmin with
        | none => rw [hm] at h; exact (Except.ok.inj h).symm
        | some a =>
          rw [hm] at h
          simp only at h
          split_ifs at h with hb
          exact (Except.ok.inj h).symm
      · exact (Except.ok.inj h).symm
    rw [hdp, hri, hmi, hqk]
    refine ⟨fun b' hb' hlt => ?_, fun hle => ?_⟩
    · cases hb'
      rw [if_pos (by simpa using hlt)]; ring
    · rw [if_neg (by simpa using hle b rfl)]

section
variable {F : UserF K} {V : List K → List K} {N : ℕ} {p : List K} {pmin pmax : Option (List K)} {prel pabs : List K}
  {mask : List Bool} {log : List (List K)} {rows : List (List K)}

/-- **C47.** When `numerical_partials(f, p, f(p), pmin, pmax, prel, pabs, pmask)` returns, there is one row per free
parameter, in order; row `k`, for parameter `i`, is the one-sided difference quotient of `f` with step `d ≠ 0`, where
`d` is the documented `maximum(prel*|p_i|, pabs)`, with the sign reversed exactly if the step would exceed `pmax`
(`pmin`, `pmax` hold the bounds of the free parameters). -/
theorem C47_quotients (hV : PureF F V N) (h1 : prel.length = p.length) (h2 : pabs.length = p.length)
    (h3 : mask.length = p.length) (h4 : ∀ b, pmax = some b → b.length = (freeIdx mask).length)
    (h : (numericalPartials F p (V p) pmin pmax prel pabs mask log).1 = .ok rows) :
    rows.length = (freeIdx mask).length ∧ ∀ k < rows.length, ∀ i, i = (freeIdx mask).getD k 0 →
      ∃ d, d ≠ 0 ∧ (rows.getD k []).length = N ∧
        (∀ t < N, (rows.getD k []).getD t 0 = ((V (p.set i (p.getD i 0 + d))).getD t 0 - (V p).getD t 0) / d) ∧
        (∀ b, pmax = some b → b.getD k 0 < p.getD i 0 + stepSize prel pabs p i → d = -stepSize prel pabs p i) ∧
        ((∀ b, pmax = some b → p.getD i 0 + stepSize prel pabs p i ≤ b.getD k 0) → d = stepSize prel pabs p i) := by
  simp only [freeIdx_length] at h4 ⊢
  have hT : Tri (fun _ => True) (numericalPartials F p (V p) pmin pmax prel pabs mask) (fun rows =>
      ∃ dp, partialSteps p pmin pmax prel pabs mask = .ok dp ∧ rows.length = dp.length ∧ ∀ k < dp.length, dp.getD k 0 ≠ 0 ∧
        rows.getD k [] = (List.zipWith (· - ·) (V (maskSet mask ((maskGet mask p).set (0 + k)
          ((maskGet mask p).getD (0 + k) 0 + dp.getD k 0)) p)) (V p)).map (· / dp.getD k 0)) := by
    unfold numericalPartials
    refine Tri.bind (P := fun dp => partialSteps p pmin pmax prel pabs mask = .ok dp) (Tri.lift fun _ h => h) fun dp hdp => ?_
    exact Tri.mono (partialsLoop_post hV p (V p) (hV.2 p) mask _ dp 0) fun rows hr => ⟨dp, hdp, hr⟩
  obtain ⟨dp, hdp, hl, hr⟩ := (hT log (by simp)).2 rows h
  have hdl := partialSteps_length hdp h1 h2 h3 h4
  refine ⟨by rw [hl, hdl], fun k hk i hi => ?_⟩
  rw [hl] at hk
  have hk' : k < (freeIdx mask).length := by rw [freeIdx_length, ← hdl]; exact hk
  obtain ⟨hd, hrow⟩ := hr k hk
  have hv := partialSteps_val hdp h1 h2 h3 h4 k (by rw [← hdl]; exact hk)
  rw [Nat.zero_add, maskSet_set mask p h3 k hk', maskGet_getD 0 mask p h3 k hk', ← hi] at hrow
  rw [← hi] at hv
  refine ⟨dp.getD k 0, hd, ?_, fun t ht => ?_, hv.1, hv.2⟩
  · rw [hrow]; simp [hV.2]
  · rw [hrow]
    have hvl := hV.2 (p.set i (p.getD i 0 + dp.getD k 0))
    generalize V (p.set i (p.getD i 0 + dp.getD k 0)) = v at hvl
    have hvp := hV.2 p
    generalize dp.getD k 0 = d
    rw [List.getD_eq_getElem _ _ (by simp [hvl, hvp, ht]), List.getElem_map, List.getElem_zipWith,
      List.getD_eq_getElem _ _ (by rw [hvl]; exact ht), List.getD_eq_getElem _ _ (by rw [hvp]; exact ht)]

/-- **C47**, affine functions: the result is the exact gradient, whatever the step sizes. -/
theorem C47_affine (hV : PureF F V N) (h1 : prel.length = p.length) (h2 : pabs.length = p.length)
    (h3 : mask.length = p.length) (h4 : ∀ b, pmax = some b → b.length = (freeIdx mask).length)
    (c : ℕ → K) (a : ℕ → ℕ → K)
    (haff : ∀ q : List K, q.length = p.length → ∀ t < N, (V q).getD t 0 = c t + ∑ i ∈ Finset.range p.length, a t i * q.getD i 0)
    (h : (numericalPartials F p (V p) pmin pmax prel pabs mask log).1 = .ok rows) :
    rows.length = (freeIdx mask).length ∧
      ∀ k < rows.length, ∀ t < N, (rows.getD k []).getD t 0 = a t ((freeIdx mask).getD k 0) := by
  obtain ⟨hl, hr⟩ := C47_quotients hV h1 h2 h3 h4 h
  refine ⟨hl, fun k hk t ht => ?_⟩
  obtain ⟨d, hd, -, hq, -⟩ := hr k hk _ rfl
  have hil : (freeIdx mask).getD k 0 < p.length := by rw [← h3]; exact (freeIdx_lt (by rw [← hl]; exact hk)).1
  set i := (freeIdx mask).getD k 0
  rw [hq t ht, haff _ (by simp) t ht, haff p rfl t ht, div_eq_iff hd]
  have : ∑ j ∈ Finset.range p.length, a t j * (p.set i (p.getD i 0 + d)).getD j 0 =
      ∑ j ∈ Finset.range p.length, (a t j * p.getD j 0 + if i = j then a t i * d else 0) := by
    refine Finset.sum_congr rfl fun j _ => ?_
    by_cases hij : i = j
    · subst hij
      rw [getD_set_self2 _ _ _ _ hil, if_pos rfl]; ring
    · rw [getD_set_ne2 _ _ _ hij, if_neg hij, add_zero]
  rw [this, Finset.sum_add_distrib, Finset.sum_ite_eq, if_pos (by simpa using hil)]
  ring

theorem partialsLoop_run (hV : PureF F V N) (pfull f0 : List K) (hf0 : f0.length = N) (pm : List Bool) (q : List K) :
    ∀ (ds : List K) (i : ℕ) (log : List (List K)),
      ((∀ d ∈ ds, d ≠ 0) → ∃ rows, (partialsLoop F pfull f0 pm q ds i log).1 = .ok rows) ∧
      ((∃ d ∈ ds, d = 0) → (partialsLoop F pfull f0 pm q ds i log).1 = .error (.raised .valueError))
  | [], i, log => ⟨fun _ => ⟨[], rfl⟩, fun h => by simp at h⟩
  | d :: ds, i, log => by
    rw [partialsLoop]
    by_cases hd : d = 0
    · rw [if_pos hd]
      refine ⟨fun h => absurd hd (h d (by simp)), fun _ => rfl⟩
    · rw [if_neg hd]
      set q' := maskSet pm (q.set i (q.getD i 0 + d)) pfull
      have hb : bzip (· - ·) (V q') f0 = .ok (List.zipWith (· - ·) (V q') f0) := by
        unfold bzip; rw [if_pos (by rw [hV.2, hf0])]
      have hcall : F.call q' log = (.ok (V q'), log ++ [q']) := by unfold UserF.call; rw [hV.1]
      have ih := partialsLoop_run hV pfull f0 hf0 pm q ds (i + 1) (log ++ [q'])
      simp only [bind, Run.andThen, hcall, Run.lift, hb]
      refine ⟨fun h => ?_, fun h => ?_⟩
      · obtain ⟨rows, hr⟩ := ih.1 fun e he => h e (by simp [he])
        rcases hh : partialsLoop F pfull f0 pm q ds (i + 1) (log ++ [q']) with ⟨r, log'⟩
        rw [hh] at hr
        simp only at hr
        subst hr
        exact ⟨_, rfl⟩
      · have := ih.2 (by
          obtain ⟨e, he, h0⟩ := h
          rcases List.mem_cons.1 he with rfl | he
          · exact absurd h0 hd
          · exact ⟨e, he, h0⟩)
        rcases hh : partialsLoop F pfull f0 pm q ds (i + 1) (log ++ [q']) with ⟨r, log'⟩
        rw [hh] at this
        simp only at this
        subst this
        rfl

/-- **C47**, success and the zero step: without an upper bound the call returns if every free parameter has a non-zero
step, and raises ValueError if one of them has step zero. -/
theorem C47_zero_step (hV : PureF F V N) (h1 : prel.length = p.length) (h2 : pabs.length = p.length)
    (h3 : mask.length = p.length) :
    ((∀ i < p.length, mask.getD i false = true → stepSize prel pabs p i ≠ 0) →
      ∃ rows, (numericalPartials F p (V p) pmin none prel pabs mask log).1 = .ok rows) ∧
    ((∃ i < p.length, mask.getD i false = true ∧ stepSize prel pabs p i = 0) →
      (numericalPartials F p (V p) pmin none prel pabs mask log).1 = .error (.raised .valueError)) := by
  have hs : ∃ dp, partialSteps p pmin none prel pabs mask = .ok dp := ⟨_, rfl⟩
  obtain ⟨dp, hdp⟩ := hs
  have hl := partialSteps_length hdp h1 h2 h3 (by simp)
  have hv := partialSteps_val hdp h1 h2 h3 (by simp)
  have hrun : numericalPartials F p (V p) pmin none prel pabs mask log =
      partialsLoop F p (V p) mask (maskGet mask p) dp 0 log := by
    unfold numericalPartials
    simp only [bind, Run.andThen, Run.lift, hdp]
  rw [hrun]
  have hr := partialsLoop_run hV p (V p) (hV.2 p) mask (maskGet mask p) dp 0 log
  refine ⟨fun h => hr.1 fun d hd => ?_, fun ⟨i, hi, hm, h0⟩ => hr.2 ?_⟩
  · obtain ⟨k, hk, rfl⟩ := List.mem_iff_getElem.1 hd
    rw [← List.getD_eq_getElem _ (0 : K) hk, (hv k (by rw [← hl]; exact hk)).2 (by simp)]
    have := freeIdx_lt (m := mask) (k := k) (by rw [freeIdx_length, ← hl]; exact hk)
    exact h _ (by rw [← h3]; exact this.1) this.2
  · have : i ∈ freeIdx mask := mem_freeIdx.2 ⟨by rw [h3]; exact hi, hm⟩
    obtain ⟨k, hk, he⟩ := List.mem_iff_getElem.1 this
    have hk' : k < dp.length := by rw [hl, ← freeIdx_length]; exact hk
    refine ⟨dp.getD k 0, ?_, ?_⟩
    · rw [List.getD_eq_getElem _ _ hk']; exact List.getElem_mem hk'
    · rw [(hv k (by rw [← hl]; exact hk')).2 (by simp), List.getD_eq_getElem _ _ hk, he]; exact h0

end

/-- A concrete non-linear case with the second parameter at its upper bound, the third fixed, and unequal steps. -/
example : (numericalPartials (exUser : UserF ℚ) [2, 5, 7] (exFun [2, 5, 7]) none (some [10, 5]) [1/2, 1/5, 1] [0, 0, 0]
    [true, true, false] []).1 = .ok [[5, 1], [2, 3]] := by decide +kernel

example : (numericalPartials (exUser : UserF ℚ) [2, 0, 7] (exFun [2, 0, 7]) none none [1/2, 1/5, 1] [0, 0, 0]
    [true, true, false] []).1 = .error (.raised .valueError) := by decide +kernel

end Npplus
