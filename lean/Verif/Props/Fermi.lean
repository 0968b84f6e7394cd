import Verif.Lemmas.Ravel

/-!
# C70, C71: fermi.py
-/

set_option linter.unusedSectionVars false
namespace Npplus
open Npplus.Fermi Npplus.Spec

/-- A polynomial with coefficients in decreasing powers: `c₀ x^(n-1) + c₁ x^(n-2) + … + c_(n-1)`. -/
noncomputable def Spec.decPoly (c : List ℚ) (x : ℝ) : ℝ := ∑ i ∈ Finset.range c.length, (c.getD i 0 : ℝ) * x ^ (c.length - 1 - i)

theorem decPoly_snoc (c : List ℚ) (a : ℚ) (x : ℝ) : decPoly (c ++ [a]) x = decPoly c x * x + (a : ℝ) := by
  unfold decPoly
  rw [List.length_append, List.length_singleton, Finset.sum_range_succ, Finset.sum_mul]
  congr 1
  · apply Finset.sum_congr rfl
    intro i hi
    have hi := Finset.mem_range.1 hi
    rw [List.getD_append _ _ _ _ hi, mul_assoc, ← pow_succ]
    congr 2; omega
  · rw [List.getD_append_right _ _ _ _ (le_refl _)]
    simp

theorem peval_eq (c : List ℚ) (h : 2 ≤ c.length) (x : ℝ) : peval c x = decPoly c x := by
  rcases c with _ | ⟨a, _ | ⟨b, c⟩⟩
  · simp at h
  · simp at h
  · unfold peval
    simp only [List.drop_succ_cons, List.drop_zero, List.getD_cons_zero, List.getD_cons_succ]
    have hfold : ∀ (l pre : List ℚ), l.foldl (fun (p : ℝ) (a : ℚ) => p * x + (a : ℝ)) (decPoly pre x) = decPoly (pre ++ l) x := by
      intro l
      induction l with
      | nil => simp
      | cons t l ih =>
        intro pre
        rw [List.foldl_cons, ← decPoly_snoc, ih]
        simp
    rw [show (a : ℝ) * x + (b : ℝ) = decPoly [a, b] x by simp [decPoly, Finset.sum_range_succ], hfold]
    rfl

/-- The documented approximation of one element, fd functions; `f` is the extra factor. -/
noncomputable def Spec.fdValue (c : Coef) (f : ℝ → ℝ) (x : ℝ) : ℝ :=
  if x < 2 then Real.exp x * decPoly c.anum (Real.exp x) / decPoly c.aden (Real.exp x)
  else Real.sqrt x * f x * decPoly c.bnum (1 / x ^ 2) / decPoly c.bden (1 / x ^ 2)

/-- The documented approximation of one element, inverses; `f` is the scaling of x. -/
noncomputable def Spec.ifdValue (c : Coef) (f : ℝ → ℝ) (x : ℝ) : ℝ :=
  if x < 4 then Real.log (x * decPoly c.anum x / decPoly c.aden x)
  else decPoly c.bnum (f x) / (f x * decPoly c.bden (f x))

/-- All four tuples have at least two coefficients. -/
def Long (c : Coef) : Prop := 2 ≤ c.anum.length ∧ 2 ≤ c.aden.length ∧ 2 ≤ c.bnum.length ∧ 2 ≤ c.bden.length

theorem zipWith_map_map {α β γ δ : Type} (h : β → γ → δ) (f : α → β) (g : α → γ) (l : List α) :
    List.zipWith h (l.map f) (l.map g) = l.map fun a => h (f a) (g a) := by
  induction l with
  | nil => rfl
  | cons a l ih => simp [ih]

theorem zipWith_replicate {α β γ : Type} (h : α → β → γ) (b : β) (l : List α) :
    List.zipWith h l (List.replicate l.length b) = l.map fun a => h a b := by
  induction l with
  | nil => rfl
  | cons a l ih => simp [List.replicate_succ, ih]

theorem zipWith_self_map {α β γ : Type} (h : α → β → γ) (g : α → β) (l : List α) :
    List.zipWith h l (l.map g) = l.map fun a => h a (g a) := by
  induction l with
  | nil => rfl
  | cons a l ih => simp [ih]

theorem fdTemplate_eq (c : Coef) (hc : Long c) (f : ℝ → ℝ) (x : NdArr ℝ) :
    fdTemplate c f x = NdArr.ofList x.shape (x.toList.map (fdValue c f)) := by
  obtain ⟨c1, c2, c3, c4⟩ := hc
  unfold fdTemplate
  simp only [List.map_map]
  congr 1
  have e1 := maskSet_ite (fun a : ℝ => decide (a < 2))
    (fun a => Real.exp a * peval c.anum (Real.exp a) / peval c.aden (Real.exp a)) x.toList
    (List.replicate x.toList.length 0) (by simp)
  have e2 := maskSet_ite (fun a : ℝ => !decide (a < 2))
    (fun a => Real.sqrt a * f a * peval c.bnum (1 / (a * a)) / peval c.bden (1 / (a * a))) x.toList
    (x.toList.map fun a => if a < 2 then Real.exp a * peval c.anum (Real.exp a) / peval c.aden (Real.exp a) else 0) (by simp)
  rw [zipWith_replicate] at e1
  simp only [decide_eq_true_eq] at e1
  simp only [zipWith_map_map]
  rw [show ((fun z => z * peval c.anum z / peval c.aden z) ∘ Real.exp) =
    (fun a => Real.exp a * peval c.anum (Real.exp a) / peval c.aden (Real.exp a)) from rfl, e1]
  rw [show ((fun x => !x) ∘ fun a : ℝ => decide (a < 2)) = (fun a : ℝ => !decide (a < 2)) from rfl, e2, zipWith_self_map]
  apply List.map_congr_left
  intro a _
  unfold fdValue
  by_cases ha : a < 2
  · simp [ha, peval_eq _ c1, peval_eq _ c2]
  · simp [ha, peval_eq _ c3, peval_eq _ c4, sq]

theorem ifdTemplate_eq (c : Coef) (hc : Long c) (f : ℝ → ℝ) (x : NdArr ℝ) :
    ifdTemplate c f x = NdArr.ofList x.shape (x.toList.map (ifdValue c f)) := by
  obtain ⟨c1, c2, c3, c4⟩ := hc
  unfold ifdTemplate
  simp only [List.map_map]
  congr 1
  have e1 := maskSet_ite (fun a : ℝ => decide (a < 4))
    (fun a => Real.log (a * peval c.anum a / peval c.aden a)) x.toList
    (List.replicate x.toList.length 0) (by simp)
  have e2 := maskSet_ite (fun a : ℝ => !decide (a < 4))
    (fun a => peval c.bnum (f a) / (f a * peval c.bden (f a))) x.toList
    (x.toList.map fun a => if a < 4 then Real.log (a * peval c.anum a / peval c.aden a) else 0) (by simp)
  rw [zipWith_replicate] at e1
  simp only [decide_eq_true_eq] at e1
  rw [e1]
  rw [show ((fun x => !x) ∘ fun a : ℝ => decide (a < 4)) = (fun a : ℝ => !decide (a < 4)) from rfl,
    show ((fun z => peval c.bnum z / (z * peval c.bden z)) ∘ f) = (fun a => peval c.bnum (f a) / (f a * peval c.bden (f a))) from rfl,
    e2, zipWith_self_map]
  apply List.map_congr_left
  intro a _
  unfold ifdValue
  by_cases ha : a < 4
  · simp [ha, peval_eq _ c1, peval_eq _ c2]
  · simp [ha, peval_eq _ c3, peval_eq _ c4]

/-- `F` acts elementwise as `φ`: shape kept, every element the value of `φ` at that element. -/
def Elementwise (F : NdArr ℝ → NdArr ℝ) (φ : ℝ → ℝ) : Prop :=
  ∀ x, (F x).shape = x.shape ∧ ∀ idx, ValidIdx x.shape idx → (F x).get idx = φ (x.get idx)

theorem long_all : Long fdm12Coef ∧ Long fd12Coef ∧ Long fd32Coef ∧ Long fd52Coef ∧
    Long ifdm12Coef ∧ Long ifd12Coef ∧ Long ifd32Coef ∧ Long ifd52Coef := by
  simp [Long, fdm12Coef, fd12Coef, fd32Coef, fd52Coef, ifdm12Coef, ifd12Coef, ifd32Coef, ifd52Coef]

/-- **C70**: the Fermi-Dirac integrals, elementwise; branch at x < 2, factor x^(order+1/2)·sqrt(x). -/
theorem C70_fd : Elementwise fdm12 (fdValue fdm12Coef fun _ => 1) ∧ Elementwise fd12 (fdValue fd12Coef fun x => x) ∧
    Elementwise fd32 (fdValue fd32Coef fun x => x ^ 2) ∧ Elementwise fd52 (fdValue fd52Coef fun x => x ^ 3) := by
  obtain ⟨h1, h2, h3, h4, _⟩ := long_all
  refine ⟨fun x => ?_, fun x => ?_, fun x => ?_, fun x => ?_⟩
  · rw [fdm12, fdTemplate_eq _ h1]; exact ofList_map x _
  · rw [fd12, fdTemplate_eq _ h2]; exact ofList_map x _
  · rw [fd32, fdTemplate_eq _ h3, show (fun x : ℝ => x * x) = fun x => x ^ 2 by funext; ring]; exact ofList_map x _
  · rw [fd52, fdTemplate_eq _ h4, show (fun x : ℝ => x * x * x) = fun x => x ^ 3 by funext; ring]; exact ofList_map x _

/-- **C70**: the inverses, elementwise; branch at x < 4, scaling x^(-1/(order+1)). -/
theorem C70_ifd : Elementwise ifdm12 (ifdValue ifdm12Coef fun x => x⁻¹ ^ 2) ∧
    Elementwise ifd12 (ifdValue ifd12Coef fun x => x ^ (-2 / 3 : ℝ)) ∧
    Elementwise ifd32 (ifdValue ifd32Coef fun x => x ^ (-2 / 5 : ℝ)) ∧
    Elementwise ifd52 (ifdValue ifd52Coef fun x => x ^ (-2 / 7 : ℝ)) := by
  obtain ⟨_, _, _, _, h1, h2, h3, h4⟩ := long_all
  refine ⟨fun x => ?_, fun x => ?_, fun x => ?_, fun x => ?_⟩
  · rw [ifdm12, ifdTemplate_eq _ h1, show (fun x : ℝ => 1 / (x * x)) = fun x => x⁻¹ ^ 2 by funext; field_simp]; exact ofList_map x _
  · rw [ifd12, ifdTemplate_eq _ h2]; exact ofList_map x _
  · rw [ifd32, ifdTemplate_eq _ h3]; exact ofList_map x _
  · rw [ifd52, ifdTemplate_eq _ h4]; exact ofList_map x _

/-- A 2-element array using both branches. -/
example : (fd12 ⟨[2], fun i => if i = [0] then 0 else 2⟩).get [0] = decPoly fd12Coef.anum 1 / decPoly fd12Coef.aden 1 ∧
    (fd12 ⟨[2], fun i => if i = [0] then 0 else 2⟩).get [1] =
      Real.sqrt 2 * 2 * decPoly fd12Coef.bnum (1/4) / decPoly fd12Coef.bden (1/4) := by
  have h := C70_fd.2.1 ⟨[2], fun i => if i = [0] then 0 else 2⟩
  constructor
  · rw [h.2 [0] (by simp [ValidIdx])]; simp [fdValue]
  · rw [h.2 [1] (by simp [ValidIdx])]; norm_num [fdValue]

/-! ### C71: sign certificates in the Bernstein basis -/

/-- Homogeneous polynomial `Σ L_i z^i u^(n-i)`. -/
def evalH (L : List ℚ) (z u : ℝ) : ℝ :=
  match L with
  | [] => 0
  | a :: L => (a : ℝ) * u ^ L.length + z * evalH L z u

theorem evalH_snoc (L : List ℚ) (a : ℚ) (z u : ℝ) : evalH (L ++ [a]) z u = u * evalH L z u + (a : ℝ) * z ^ L.length := by
  induction L with
  | nil => simp [evalH]
  | cons b L ih =>
    simp only [List.cons_append, evalH, ih, List.length_append, List.length_cons, List.length_nil]
    ring

theorem evalH_add : ∀ (L M : List ℚ) (z u : ℝ), L.length = M.length →
    evalH (List.zipWith (· + ·) L M) z u = evalH L z u + evalH M z u
  | [], [], z, u, _ => by simp [evalH]
  | [], _ :: _, z, u, h => by simp at h
  | _ :: _, [], z, u, h => by simp at h
  | a :: L, b :: M, z, u, h => by
    have h' : L.length = M.length := by simpa using h
    simp only [List.zipWith_cons_cons, evalH]
    rw [evalH_add L M z u h', List.length_zipWith, h', Nat.min_self]
    push_cast; ring

theorem evalH_smul (L : List ℚ) (a : ℚ) (z u : ℝ) : evalH (L.map (a * ·)) z u = (a : ℝ) * evalH L z u := by
  induction L with
  | nil => simp [evalH]
  | cons b L ih => simp only [List.map_cons, evalH, ih, List.length_map]; push_cast; ring

/-- coefficients of `((z+u)/h)^n` -/
def powH (h : ℚ) : ℕ → List ℚ
  | 0 => [1]
  | n + 1 => (List.zipWith (· + ·) (powH h n ++ [0]) (0 :: powH h n)).map (1 / h * ·)

theorem powH_length (h : ℚ) (n : ℕ) : (powH h n).length = n + 1 := by
  induction n with
  | zero => rfl
  | succ n ih => simp [powH, ih]

theorem evalH_powH (h : ℚ) (n : ℕ) (z u : ℝ) : evalH (powH h n) z u = ((z + u) / h) ^ n := by
  induction n with
  | zero => simp [powH, evalH]
  | succ n ih =>
    rw [powH, evalH_smul, evalH_add _ _ _ _ (by simp), evalH_snoc]
    simp only [evalH, ih]
    push_cast
    rw [pow_succ]; ring

/-- Bernstein-type coefficients of the polynomial `c` (decreasing powers) on `[0, h]`. -/
def bern (h : ℚ) : List ℚ → List ℚ
  | c => c.foldl (fun L a => List.zipWith (· + ·) (0 :: L) ((powH h L.length).map (a * ·))) []

theorem bern_spec (h : ℚ) (hh : h ≠ 0) (c : List ℚ) (z u : ℝ) (hzu : z + u = (h : ℝ)) :
    evalH (bern h c) z u = decPoly c z ∧ (bern h c).length = c.length := by
  induction c using List.reverseRecOn with
  | nil => simp [bern, evalH, decPoly]
  | append_singleton c a ih =>
    obtain ⟨ih1, ih2⟩ := ih
    have hb : bern h (c ++ [a]) = List.zipWith (· + ·) (0 :: bern h c) ((powH h (bern h c).length).map (a * ·)) := by
      simp [bern, List.foldl_append]
    rw [hb]
    constructor
    · rw [evalH_add _ _ _ _ (by simp [powH_length]), evalH_smul, evalH_powH, hzu, div_self (by exact_mod_cast hh),
        decPoly_snoc]
      simp only [evalH, ih1]
      push_cast; ring
    · simp [powH_length, ih2]

theorem evalH_pos : ∀ (L : List ℚ) (z u : ℝ), L ≠ [] → (∀ a ∈ L, 0 < a) → 0 ≤ z → 0 ≤ u → 0 < z + u → 0 < evalH L z u
  | [], _, _, h, _, _, _, _ => absurd rfl h
  | [a], z, u, _, hp, _, _, _ => by
    have : (0 : ℝ) < a := by exact_mod_cast hp a (by simp)
    simpa [evalH] using this
  | a :: b :: L, z, u, _, hp, hz, hu, hzu => by
    have ha : (0 : ℝ) < a := by exact_mod_cast hp a (by simp)
    have ih := evalH_pos (b :: L) z u (by simp) (fun x hx => hp x (List.mem_cons_of_mem _ hx)) hz hu hzu
    rw [evalH]
    rcases hz.eq_or_lt with h | h
    · have : 0 < u := by linarith
      have := mul_pos ha (pow_pos this (b :: L).length)
      rw [← h] at *
      linarith
    · have := mul_nonneg ha.le (pow_nonneg hu (b :: L).length)
      have := mul_pos h ih
      linarith

/-- All coefficients positive on `[0,h]` in the Bernstein basis. -/
def bernPos (h : ℚ) (c : List ℚ) : Bool := c ≠ [] && (bern h c).all fun a => decide (0 < a)

theorem decPoly_pos (h : ℚ) (hh : 0 < h) (c : List ℚ) (hc : bernPos h c = true) (z : ℝ) (hz : 0 ≤ z) (hzh : z ≤ h) :
    0 < decPoly c z := by
  simp only [bernPos, Bool.and_eq_true, List.all_eq_true, decide_eq_true_eq] at hc
  have hb := bern_spec h hh.ne' c z (h - z) (by ring)
  rw [← hb.1]
  have hh' : (0 : ℝ) < h := by exact_mod_cast hh
  apply evalH_pos _ _ _ _ hc.2 hz (by linarith) (by linarith)
  intro h0
  rw [h0] at hb
  exact hc.1 (List.length_eq_zero_iff.1 hb.2.symm)

theorem decPoly_neg_map (c : List ℚ) (z : ℝ) : decPoly (c.map (-1 * ·)) z = - decPoly c z := by
  unfold decPoly
  rw [List.length_map, ← Finset.sum_neg_distrib]
  apply Finset.sum_congr rfl
  intro i hi
  have hi := Finset.mem_range.1 hi
  rw [List.getD_eq_getElem _ _ (by simpa using hi), List.getD_eq_getElem _ _ hi]
  simp

theorem decPoly_neg (h : ℚ) (hh : 0 < h) (c : List ℚ) (hc : bernPos h (c.map (-1 * ·)) = true) (z : ℝ) (hz : 0 ≤ z) (hzh : z ≤ h) :
    decPoly c z < 0 := by
  have := decPoly_pos h hh _ hc z hz hzh
  rw [decPoly_neg_map] at this
  linarith

theorem decPoly_pos_coef (c : List ℚ) (hne : c ≠ []) (hc : c.all (fun a => decide (0 < a)) = true) (z : ℝ) (hz : 0 < z) :
    0 < decPoly c z := by
  unfold decPoly
  apply Finset.sum_pos
  · intro i hi
    have hi := Finset.mem_range.1 hi
    rw [List.getD_eq_getElem _ _ hi]
    have := List.all_eq_true.1 hc _ (List.getElem_mem hi)
    have : (0 : ℝ) < c[i] := by exact_mod_cast of_decide_eq_true this
    positivity
  · rw [Finset.nonempty_range_iff]; simpa using hne

/-- What `fdValue` divides by is not zero, and its value is positive. -/
def FdDefined (c : Coef) (f : ℝ → ℝ) (x : ℝ) : Prop :=
  (x < 2 → decPoly c.aden (Real.exp x) ≠ 0) ∧ (2 ≤ x → x * x ≠ 0 ∧ decPoly c.bden (1 / x ^ 2) ≠ 0) ∧ 0 < fdValue c f x

theorem fd_defined (c : Coef) (f : ℝ → ℝ) (hf : ∀ x, 2 ≤ x → 0 < f x)
    (ha : (c.anum ≠ [] ∧ c.anum.all (fun a => decide (0 < a)) = true) ∧ (c.aden ≠ [] ∧ c.aden.all (fun a => decide (0 < a)) = true))
    (hb : (bernPos (1/4) c.bnum = true ∧ bernPos (1/4) c.bden = true) ∨
      (bernPos (1/4) (c.bnum.map (-1 * ·)) = true ∧ bernPos (1/4) (c.bden.map (-1 * ·)) = true)) (x : ℝ) :
    FdDefined c f x := by
  have hlo : 0 < Real.exp x * decPoly c.anum (Real.exp x) / decPoly c.aden (Real.exp x) ∧ 0 < decPoly c.aden (Real.exp x) := by
    have h1 := decPoly_pos_coef _ ha.1.1 ha.1.2 _ (Real.exp_pos x)
    have h2 := decPoly_pos_coef _ ha.2.1 ha.2.2 _ (Real.exp_pos x)
    have := Real.exp_pos x
    exact ⟨by positivity, h2⟩
  have hhi : 2 ≤ x → decPoly c.bden (1 / x ^ 2) ≠ 0 ∧ 0 < decPoly c.bnum (1 / x ^ 2) / decPoly c.bden (1 / x ^ 2) := by
    intro hx
    have hz : 0 ≤ 1 / x ^ 2 := by positivity
    have hz' : 1 / x ^ 2 ≤ ((1 / 4 : ℚ) : ℝ) := by
      push_cast
      apply one_div_le_one_div_of_le (by norm_num)
      nlinarith
    rcases hb with ⟨h1, h2⟩ | ⟨h1, h2⟩
    · have g1 := decPoly_pos _ (by norm_num) _ h1 _ hz hz'
      have g2 := decPoly_pos _ (by norm_num) _ h2 _ hz hz'
      exact ⟨g2.ne', div_pos g1 g2⟩
    · have g1 := decPoly_neg _ (by norm_num) _ h1 _ hz hz'
      have g2 := decPoly_neg _ (by norm_num) _ h2 _ hz hz'
      exact ⟨g2.ne, div_pos_of_neg_of_neg g1 g2⟩
  refine ⟨fun _ => hlo.2.ne', fun hx => ⟨by positivity, (hhi hx).1⟩, ?_⟩
  unfold fdValue
  split_ifs with h
  · exact hlo.1
  · push Not at h
    have := (hhi h).2
    have := hf x h
    have hs : 0 < Real.sqrt x := Real.sqrt_pos.2 (by linarith)
    rw [mul_div_assoc]
    positivity

/-- **C71**: for every real x, `fdm12`, `fd12`, `fd32`, `fd52` divide by nothing that is zero, and their value is
positive. -/
theorem C71_fd (x : ℝ) : FdDefined fdm12Coef (fun _ => 1) x ∧ FdDefined fd12Coef (fun x => x) x ∧
    FdDefined fd32Coef (fun x => x ^ 2) x ∧ FdDefined fd52Coef (fun x => x ^ 3) x := by
  refine ⟨fd_defined _ _ (fun _ _ => one_pos) (by decide +kernel) (.inr (by decide +kernel)) x,
    fd_defined _ _ (fun x hx => by linarith) (by decide +kernel) (.inl (by decide +kernel)) x,
    fd_defined _ _ (fun x hx => by positivity) (by decide +kernel) (.inl (by decide +kernel)) x,
    fd_defined _ _ (fun x hx => by positivity) (by decide +kernel) (.inl (by decide +kernel)) x⟩

/-- **C71**, for arrays: every element of the results is positive. -/
theorem C71_positive (x : NdArr ℝ) (idx : List ℕ) (h : ValidIdx x.shape idx) :
    0 < (fdm12 x).get idx ∧ 0 < (fd12 x).get idx ∧ 0 < (fd32 x).get idx ∧ 0 < (fd52 x).get idx := by
  obtain ⟨e1, e2, e3, e4⟩ := C70_fd
  obtain ⟨p1, p2, p3, p4⟩ := C71_fd (x.get idx)
  rw [(e1 x).2 idx h, (e2 x).2 idx h, (e3 x).2 idx h, (e4 x).2 idx h]
  exact ⟨p1.2.2, p2.2.2, p3.2.2, p4.2.2⟩

/-- In `ifdValue` nothing divided by is zero, the argument of the logarithm is positive, and no root of a negative
number is taken (`0 < f x`). -/
def IfdDefined (c : Coef) (f : ℝ → ℝ) (x : ℝ) : Prop :=
  (x < 4 → decPoly c.aden x ≠ 0 ∧ 0 < x * decPoly c.anum x / decPoly c.aden x) ∧
  (4 ≤ x → 0 < f x ∧ f x * decPoly c.bden (f x) ≠ 0 ∧ 0 < ifdValue c f x)

theorem ratio_pos (h : ℚ) (hh : 0 < h) (p q : List ℚ) (hb : (bernPos h p = true ∧ bernPos h q = true) ∨
      (bernPos h (p.map (-1 * ·)) = true ∧ bernPos h (q.map (-1 * ·)) = true)) (z : ℝ) (hz : 0 ≤ z) (hz' : z ≤ h) :
    decPoly q z ≠ 0 ∧ 0 < decPoly p z / decPoly q z := by
  rcases hb with ⟨h1, h2⟩ | ⟨h1, h2⟩
  · have g1 := decPoly_pos _ hh _ h1 _ hz hz'
    have g2 := decPoly_pos _ hh _ h2 _ hz hz'
    exact ⟨g2.ne', div_pos g1 g2⟩
  · have g1 := decPoly_neg _ hh _ h1 _ hz hz'
    have g2 := decPoly_neg _ hh _ h2 _ hz hz'
    exact ⟨g2.ne, div_pos_of_neg_of_neg g1 g2⟩

theorem ifd_defined (c : Coef) (f : ℝ → ℝ) (h : ℚ) (hh : 0 < h) (hf : ∀ x, 4 ≤ x → 0 < f x ∧ f x ≤ h)
    (ha : (bernPos 4 c.anum = true ∧ bernPos 4 c.aden = true) ∨
      (bernPos 4 (c.anum.map (-1 * ·)) = true ∧ bernPos 4 (c.aden.map (-1 * ·)) = true))
    (hb : (bernPos h c.bnum = true ∧ bernPos h c.bden = true) ∨
      (bernPos h (c.bnum.map (-1 * ·)) = true ∧ bernPos h (c.bden.map (-1 * ·)) = true)) (x : ℝ) (hx : 0 < x) :
    IfdDefined c f x := by
  refine ⟨fun h4 => ?_, fun h4 => ?_⟩
  · obtain ⟨g1, g2⟩ := ratio_pos 4 (by norm_num) _ _ ha x hx.le (by push_cast; exact h4.le)
    exact ⟨g1, by rw [mul_div_assoc]; positivity⟩
  · obtain ⟨f1, f2⟩ := hf x h4
    obtain ⟨g1, g2⟩ := ratio_pos h hh _ _ hb (f x) f1.le f2
    refine ⟨f1, mul_ne_zero f1.ne' g1, ?_⟩
    unfold ifdValue
    rw [if_neg (not_lt.2 h4), div_mul_eq_div_div_swap]
    positivity

theorem rpow_bound (p q : ℕ) (a : ℚ) (ha : 0 < a) (hq : 0 < q) (h : 1 ≤ a ^ q * 4 ^ p) (x : ℝ) (hx : 4 ≤ x) :
    0 < x ^ (-(p : ℝ) / q) ∧ x ^ (-(p : ℝ) / q) ≤ a := by
  have hx0 : 0 < x := by linarith
  have haR : (0 : ℝ) < a := by exact_mod_cast ha
  refine ⟨Real.rpow_pos_of_pos hx0 _, ?_⟩
  have hq' : (q : ℝ) ≠ 0 := by positivity
  have h1 : (x ^ (-(p : ℝ) / q)) ^ q = (x ^ p)⁻¹ := by
    rw [← Real.rpow_natCast, ← Real.rpow_mul hx0.le, div_mul_cancel₀ _ hq', Real.rpow_neg hx0.le, Real.rpow_natCast]
  have h2 : (x ^ p)⁻¹ ≤ (a : ℝ) ^ q := by
    have h3 : (4 : ℝ) ^ p ≤ x ^ p := pow_le_pow_left₀ (by norm_num) hx p
    have h4 : (1 : ℝ) ≤ (a : ℝ) ^ q * 4 ^ p := by exact_mod_cast h
    rw [inv_le_iff_one_le_mul₀ (by positivity)]
    nlinarith [pow_pos haR q]
  rw [← h1] at h2
  exact le_of_pow_le_pow_left₀ (by omega) haR.le h2

/-- **C71**: for every x > 0 the four inverses are well defined (no zero denominator, logarithm of a positive
number); from 4 on their value is positive. -/
theorem C71_ifd (x : ℝ) (hx : 0 < x) : IfdDefined ifdm12Coef (fun x => x⁻¹ ^ 2) x ∧
    IfdDefined ifd12Coef (fun x => x ^ (-2 / 3 : ℝ)) x ∧ IfdDefined ifd32Coef (fun x => x ^ (-2 / 5 : ℝ)) x ∧
    IfdDefined ifd52Coef (fun x => x ^ (-2 / 7 : ℝ)) x := by
  refine ⟨ifd_defined _ _ (1/16) (by norm_num) ?_ (.inr (by decide +kernel)) (.inl (by decide +kernel)) x hx,
    ifd_defined _ _ 0.3969 (by norm_num) ?_ (.inl (by decide +kernel)) (.inr (by decide +kernel)) x hx,
    ifd_defined _ _ 0.5744 (by norm_num) ?_ (.inl (by decide +kernel)) (.inr (by decide +kernel)) x hx,
    ifd_defined _ _ 0.673 (by norm_num) ?_ (.inl (by decide +kernel)) (.inr (by decide +kernel)) x hx⟩
  · intro y hy
    have : 0 < y := by linarith
    refine ⟨by positivity, ?_⟩
    have : y⁻¹ ≤ 1 / 4 := by rw [inv_le_comm₀ this (by norm_num)]; norm_num; exact hy
    have h0 : 0 ≤ y⁻¹ := by positivity
    push_cast; nlinarith
  · intro y hy; simpa using rpow_bound 2 3 0.3969 (by norm_num) (by norm_num) (by norm_num) y hy
  · intro y hy; simpa using rpow_bound 2 5 0.5744 (by norm_num) (by norm_num) (by norm_num) y hy
  · intro y hy; simpa using rpow_bound 2 7 0.673 (by norm_num) (by norm_num) (by norm_num) y hy

/-- The inverses are not defined at 0 and below: the argument of the logarithm is then not positive. -/
example : 0 * decPoly ifd12Coef.anum 0 / decPoly ifd12Coef.aden 0 = 0 := by simp

end Npplus
