import Verif.Model.Pcwise
import Verif.Lemmas.PwPoly
import Verif.Lemmas.NdArr
import Mathlib.Tactic

/-!
# C55, C56: pcwise.py
-/

set_option linter.unusedSectionVars false
namespace Npplus
open Npplus.Pcwise Npplus.Spec

/-! ### indices in C order -/

theorem validIdx_nil (idx : List ℕ) : ValidIdx [] idx ↔ idx = [] := by
  simp [ValidIdx]

theorem validIdx_cons (d : ℕ) (s : List ℕ) (i : ℕ) (idx : List ℕ) :
    ValidIdx (d :: s) (i :: idx) ↔ i < d ∧ ValidIdx s idx := by
  unfold ValidIdx
  constructor
  · rintro ⟨h1, h2⟩
    refine ⟨by simpa using h2 0 (by simp), by simpa using h1, fun k hk => ?_⟩
    have := h2 (k + 1) (by simpa using hk)
    rwa [List.getD_cons_succ, List.getD_cons_succ] at this
  · rintro ⟨h1, h2, h3⟩
    refine ⟨by simpa using h2, fun k hk => ?_⟩
    cases k with
    | zero => simpa using h1
    | succ k =>
      rw [List.getD_cons_succ, List.getD_cons_succ]
      exact h3 k (by simpa using hk)

theorem unravel_valid : ∀ (s : List ℕ) (i : ℕ), i < s.prod → ValidIdx s (NdArr.unravel s i)
  | [], i, _ => by simp [NdArr.unravel, validIdx_nil]
  | d :: s, i, h => by
    rw [List.prod_cons] at h
    have hp : 0 < s.prod := Nat.pos_of_ne_zero (by rintro e; rw [e] at h; simp at h)
    rw [NdArr.unravel, validIdx_cons]
    exact ⟨by rwa [Nat.div_lt_iff_lt_mul hp], unravel_valid s _ (Nat.mod_lt _ hp)⟩

theorem unravel_surj : ∀ (s idx : List ℕ), ValidIdx s idx → ∃ i < s.prod, NdArr.unravel s i = idx
  | [], idx, h => by rw [validIdx_nil] at h; subst h; exact ⟨0, by simp, rfl⟩
  | d :: s, [], h => by have := h.1; simp at this
  | d :: s, j :: idx, h => by
    rw [validIdx_cons] at h
    obtain ⟨i, hi, e⟩ := unravel_surj s idx h.2
    refine ⟨j * s.prod + i, ?_, ?_⟩
    · rw [List.prod_cons]
      calc j * s.prod + i < j * s.prod + s.prod := by omega
        _ = (j + 1) * s.prod := by ring
        _ ≤ d * s.prod := Nat.mul_le_mul_right _ h.1
    · have hp : 0 < s.prod := by omega
      rw [NdArr.unravel]
      rw [show j * s.prod + i = i + s.prod * j by ring, Nat.add_mul_div_left _ _ hp, Nat.add_mul_mod_self_left,
        Nat.div_eq_of_lt hi, Nat.mod_eq_of_lt hi, e]
      simp

theorem mem_allIdx (s idx : List ℕ) : idx ∈ allIdx s ↔ ValidIdx s idx := by
  unfold allIdx
  rw [List.mem_map]
  constructor
  · rintro ⟨i, hi, rfl⟩; exact unravel_valid s i (List.mem_range.1 hi)
  · intro h; obtain ⟨i, hi, e⟩ := unravel_surj s idx h; exact ⟨i, List.mem_range.2 hi, e⟩

variable {X Y : Type} [LinearOrder X]

/-- Called with any array of points of the domain `D` (of any shape), the entry returns the array of the values of
`φ`: same shape, elementwise. -/
def ActsAs (p : Ent X Y) (D : X → Prop) (φ : X → Y) : Prop :=
  ∀ a : NdArr X, (∀ idx, ValidIdx a.shape idx → D (a.get idx)) → ∃ v, p.call a = .ok v ∧ v.Same (a.map φ)

/-- Some element of `x` lies in the `i`-th domain. -/
def Hit (bs : List X) (x : NdArr X) (i : ℕ) : Prop := ∃ idx, ValidIdx x.shape idx ∧ InPiece bs i (x.get idx)

theorem inPiece_ss {bs : List X} (hs : bs.Pairwise (· < ·)) (x : X) : InPiece bs (searchsorted bs x) x :=
  ⟨searchsorted_le bs x, fun _ h hj => lt_of_lt_searchsorted hs h hj, fun _ h hj => le_of_searchsorted_le hs h hj⟩

theorem inPiece_iff {bs : List X} (hs : bs.Pairwise (· < ·)) (x : X) (i : ℕ) :
    InPiece bs i x ↔ searchsorted bs x = i := by
  constructor
  · rintro ⟨h1, h2, h3⟩
    have hle := searchsorted_le bs x
    rcases lt_trichotomy (searchsorted bs x) i with h | h | h
    · have hlt : searchsorted bs x < bs.length := by omega
      exact absurd (h2 _ hlt h) (not_lt.2 (le_of_searchsorted_le hs hlt (le_refl _)))
    · exact h
    · have hlt : i < bs.length := by omega
      exact absurd (lt_of_lt_searchsorted hs hlt h) (not_lt.2 (h3 _ hlt (le_refl _)))
  · rintro rfl; exact inPiece_ss hs x

theorem maskStep_miss {x : NdArr X} {mask : List ℕ → Bool} {f : NdArr X → Except PcErr (NdArr Y)} {res : NdArr Y}
    (h : ∀ idx, ValidIdx x.shape idx → mask idx = false) : maskStep x mask f res = .ok res := by
  unfold maskStep
  have : (allIdx x.shape).filter mask = [] := by
    rw [List.filter_eq_nil_iff]
    intro a ha; rw [h a ((mem_allIdx _ _).1 ha)]; simp
  simp [this]

theorem maskStep_err {x : NdArr X} {mask : List ℕ → Bool} {f : NdArr X → Except PcErr (NdArr Y)} {res : NdArr Y} {e : PcErr}
    (h : ∃ idx, ValidIdx x.shape idx ∧ mask idx = true) (hf : ∀ a, f a = .error e) : maskStep x mask f res = .error e := by
  unfold maskStep
  obtain ⟨idx, h1, h2⟩ := h
  have : ((allIdx x.shape).filter mask).length ≠ 0 := by
    intro h0
    rw [List.length_eq_zero_iff, List.filter_eq_nil_iff] at h0
    exact h0 idx ((mem_allIdx _ _).2 h1) h2
  simp only [if_neg this, hf]
  rfl

theorem canAssign_self (s : List ℕ) : canAssign s s = true := by
  simp [canAssign]

theorem maskStep_ok {x : NdArr X} {mask : List ℕ → Bool} {p : Ent X Y} {res : NdArr Y} {D : X → Prop} {φ : X → Y}
    (hD : ∀ idx, ValidIdx x.shape idx → mask idx = true → D (x.get idx)) (hp : ActsAs p D φ) :
    ∃ r, maskStep x mask p.call res = .ok r ∧ r.shape = res.shape ∧
      ∀ idx, ValidIdx x.shape idx → r.get idx = if mask idx then φ (x.get idx) else res.get idx := by
  by_cases h0 : ((allIdx x.shape).filter mask).length = 0
  · refine ⟨res, by simp [maskStep, h0], rfl, fun idx hidx => ?_⟩
    rw [List.length_eq_zero_iff, List.filter_eq_nil_iff] at h0
    rw [if_neg (h0 idx ((mem_allIdx _ _).2 hidx))]
  · have hmem : ∀ j, j < ((allIdx x.shape).filter mask).length →
        ValidIdx x.shape (((allIdx x.shape).filter mask).getD j []) ∧ mask (((allIdx x.shape).filter mask).getD j []) = true := by
      intro j hj
      rw [List.getD_eq_getElem _ _ hj]
      have := List.getElem_mem hj
      rw [List.mem_filter, mem_allIdx] at this
      exact this
    obtain ⟨v, hv, hsame⟩ := hp ⟨[((allIdx x.shape).filter mask).length],
      fun j => x.get (((allIdx x.shape).filter mask).getD (j.getD 0 0) [])⟩ (by
        intro idx hidx
        have : idx.getD 0 0 < ((allIdx x.shape).filter mask).length := by simpa using hidx.2 0 (by simp)
        exact hD _ (hmem _ this).1 (hmem _ this).2)
    have hvs : v.shape = [((allIdx x.shape).filter mask).length] := hsame.1
    refine ⟨⟨res.shape, fun idx => if mask idx then v.get (bcIdx v.shape [((allIdx x.shape).filter mask).idxOf idx])
      else res.get idx⟩, ?_, rfl, ?_⟩
    · unfold maskStep
      simp only [if_neg h0, hv]
      simp only [bind, Except.bind]
      rw [if_pos (by rw [hvs]; exact canAssign_self _)]
      rfl
    · intro idx hidx
      by_cases hm : mask idx = true
      · simp only [hm, if_true]
        have hmm : idx ∈ (allIdx x.shape).filter mask := by rw [List.mem_filter, mem_allIdx]; exact ⟨hidx, hm⟩
        have hlt := List.idxOf_lt_length_iff.2 hmm
        have hval : ValidIdx v.shape [((allIdx x.shape).filter mask).idxOf idx] := by
          rw [hvs, validIdx_cons]; exact ⟨hlt, (validIdx_nil _).2 rfl⟩
        rw [bcIdx_self hval, hsame.2 _ hval]
        simp only [NdArr.map]
        congr 2
        rw [List.getD_cons_zero, List.getD_eq_getElem _ _ hlt, List.getElem_idxOf]
      · simp [hm]

theorem maskLoop_ok {x : NdArr X} {ialg : List ℕ → ℕ} {φ : ℕ → X → Y} {D : ℕ → X → Prop}
    (hD : ∀ idx, ValidIdx x.shape idx → D (ialg idx) (x.get idx)) : ∀ (fs : List (Ent X Y)) (i : ℕ) (res : NdArr Y),
    (∀ j p, fs[j]? = some p → (∃ idx, ValidIdx x.shape idx ∧ ialg idx = i + j) → ActsAs p (D (i + j)) (φ (i + j))) →
    ∃ r, maskLoop x ialg i fs res = .ok r ∧ r.shape = res.shape ∧ ∀ idx, ValidIdx x.shape idx →
      r.get idx = if i ≤ ialg idx ∧ ialg idx < i + fs.length then φ (ialg idx) (x.get idx) else res.get idx
  | [], i, res, _ => ⟨res, rfl, rfl, fun idx _ => by rw [if_neg]; simp⟩
  | p :: fs, i, res, h => by
    have hstep : ∃ r, maskStep x (fun idx => ialg idx == i) p.call res = .ok r ∧ r.shape = res.shape ∧
        ∀ idx, ValidIdx x.shape idx → r.get idx = if ialg idx = i then φ i (x.get idx) else res.get idx := by
      by_cases hh : ∃ idx, ValidIdx x.shape idx ∧ ialg idx = i
      · obtain ⟨r, h1, h2, h3⟩ := maskStep_ok (x := x) (mask := fun idx => ialg idx == i) (res := res) (D := D i) (φ := φ i)
          (fun idx hv hm => by have := hD idx hv; simp only [beq_iff_eq] at hm; rwa [hm] at this)
          (by simpa using h 0 p rfl (by simpa using hh))
        exact ⟨r, h1, h2, fun idx hv => by simpa using h3 idx hv⟩
      · refine ⟨res, maskStep_miss fun idx hv => ?_, rfl, fun idx hv => ?_⟩
        · simp only [beq_eq_false_iff_ne]; exact fun e => hh ⟨idx, hv, e⟩
        · rw [if_neg (fun e => hh ⟨idx, hv, e⟩)]
    obtain ⟨r1, h1, h2, h3⟩ := hstep
    obtain ⟨r, g1, g2, g3⟩ := maskLoop_ok hD fs (i + 1) r1 (fun j q hq hx => by
      have := h (j + 1) q (by simpa using hq) (by simpa [Nat.add_assoc, Nat.add_comm 1 j] using hx)
      simpa [Nat.add_assoc, Nat.add_comm 1 j] using this)
    refine ⟨r, by simp [maskLoop, h1, bind, Except.bind, g1], by rw [g2, h2], fun idx hv => ?_⟩
    rw [g3 idx hv, h3 idx hv]
    simp only [List.length_cons]
    by_cases he : ialg idx = i
    · rw [if_neg (by omega), if_pos he, if_pos (by omega), he]
    · rw [if_neg he]
      by_cases hc : i + 1 ≤ ialg idx ∧ ialg idx < i + 1 + fs.length
      · rw [if_pos hc, if_pos (by omega)]
      · rw [if_neg hc, if_neg (by omega)]

theorem maskLoop_err {x : NdArr X} {ialg : List ℕ → ℕ} {φ : ℕ → X → Y} {D : ℕ → X → Prop} {m : String}
    (hD : ∀ idx, ValidIdx x.shape idx → D (ialg idx) (x.get idx)) : ∀ (fs : List (Ent X Y)) (i : ℕ) (res : NdArr Y) (k : ℕ),
    fs[k]? = some (.str m) → (∃ idx, ValidIdx x.shape idx ∧ ialg idx = i + k) →
    (∀ j < k, ∀ p, fs[j]? = some p → (∃ idx, ValidIdx x.shape idx ∧ ialg idx = i + j) → ActsAs p (D (i + j)) (φ (i + j))) →
    maskLoop x ialg i fs res = .error (.valueErrorMsg m)
  | [], i, res, k, hk, _, _ => by simp at hk
  | p :: fs, i, res, 0, hk, ⟨idx, hv, hi⟩, _ => by
    simp at hk; subst hk
    have := maskStep_err (x := x) (mask := fun idx => ialg idx == i) (f := (Ent.str m : Ent X Y).call) (res := res)
      (e := .valueErrorMsg m) ⟨idx, hv, by simpa using hi⟩ (fun a => rfl)
    simp [maskLoop, this, bind, Except.bind]
  | p :: fs, i, res, k + 1, hk, hx, h => by
    have hstep : ∃ r, maskStep x (fun idx => ialg idx == i) p.call res = .ok r := by
      by_cases hh : ∃ idx, ValidIdx x.shape idx ∧ ialg idx = i
      · obtain ⟨r, h1, _⟩ := maskStep_ok (x := x) (mask := fun idx => ialg idx == i) (res := res) (D := D i) (φ := φ i)
          (fun idx hv hm => by have := hD idx hv; simp only [beq_iff_eq] at hm; rwa [hm] at this)
          (by simpa using h 0 (by omega) p rfl (by simpa using hh))
        exact ⟨r, h1⟩
      · exact ⟨res, maskStep_miss fun idx hv => by simp only [beq_eq_false_iff_ne]; exact fun e => hh ⟨idx, hv, e⟩⟩
    obtain ⟨r1, h1⟩ := hstep
    have := maskLoop_err (φ := φ) hD fs (i + 1) r1 k (by simpa using hk) (by simpa [Nat.add_assoc, Nat.add_comm 1 k] using hx)
      (fun j hj q hq hx => by
        have := h (j + 1) (by omega) q (by simpa using hq) (by simpa [Nat.add_assoc, Nat.add_comm 1 j] using hx)
        simpa [Nat.add_assoc, Nat.add_comm 1 j] using this)
    simp [maskLoop, h1, bind, Except.bind, this]

variable [Zero Y]

/-- **C55** (partial: the domain boundaries are not the documented ones, see `C55_boundary_refuted`).  With
breakpoints `b₀ < b₁ < …` and one more function than breakpoints, calling the pcwise function with an array `x` of any
shape (0-d included) gives an array of the shape of `x`; each element is the value of the function of *its* domain
`b_{i-1} < x ≤ b_i` at that element alone.  Functions whose domain contains no element of `x` are not called, and a
function is only ever called with points of its own domain. -/
theorem C55_dispatch_partial (bs : List X) (hs : bs.Pairwise (· < ·)) (funcs : List (Ent X Y))
    (hl : funcs.length = bs.length + 1) (φ : ℕ → X → Y) (x : NdArr X)
    (hf : ∀ i p, funcs[i]? = some p → Hit bs x i → ActsAs p (InPiece bs i) (φ i)) :
    ∃ r, multif funcs bs x = .ok r ∧ r.shape = x.shape ∧
      ∀ idx, ValidIdx x.shape idx → ∀ i, InPiece bs i (x.get idx) → r.get idx = φ i (x.get idx) := by
  by_cases h0 : x.shape = []
  · have hlt : searchsorted bs (x.get []) < funcs.length := by have := searchsorted_le bs (x.get []); omega
    have hv0 : ValidIdx x.shape [] := by rw [h0]; exact (validIdx_nil _).2 rfl
    obtain ⟨v, hv, hsame⟩ := hf _ _ (List.getElem?_eq_getElem hlt) ⟨[], hv0, inPiece_ss hs _⟩ x (by
      intro idx hidx
      have : idx = [] := by rw [h0] at hidx; exact (validIdx_nil _).1 hidx
      subst this; exact inPiece_ss hs _)
    refine ⟨v, ?_, hsame.1, ?_⟩
    · unfold multif
      simp only [h0, if_true, List.getElem?_eq_getElem hlt, hv]
    · intro idx hidx i hi
      have : idx = [] := by rw [h0] at hidx; exact (validIdx_nil _).1 hidx
      subst this
      rw [hsame.2 [] (by rw [hsame.1]; exact hv0), ← (inPiece_iff hs _ _).1 hi]; rfl
  · obtain ⟨r, h1, h2, h3⟩ := maskLoop_ok (x := x) (ialg := fun idx => searchsorted bs (x.get idx)) (φ := φ)
      (D := InPiece bs) (fun idx _ => inPiece_ss hs _) funcs 0 ⟨x.shape, fun _ => 0⟩ (by
        intro j p hp ⟨idx, hv, hi⟩
        rw [Nat.zero_add] at hi ⊢
        exact hf j p hp ⟨idx, hv, (inPiece_iff hs _ _).2 hi⟩)
    refine ⟨r, by unfold multif; simp only [h0, if_false]; exact h1, h2, fun idx hv i hi => ?_⟩
    have hi := (inPiece_iff hs _ _).1 hi
    have := searchsorted_le bs (x.get idx)
    rw [h3 idx hv]
    simp only
    rw [if_pos ⟨Nat.zero_le _, by omega⟩, hi]

/-- Every point has exactly one domain, so the theorem above determines every element. -/
theorem C55_domains (bs : List X) (hs : bs.Pairwise (· < ·)) (x : X) : ∃! i, InPiece bs i x :=
  ⟨_, inPiece_ss hs x, fun j hj => ((inPiece_iff hs x j).1 hj).symm⟩

/-- Elementwise functions on rational arrays, for the examples. -/
def elem (f : ℚ → ℚ) : Ent ℚ ℚ := .fn fun a => .ok (a.map f)

theorem actsAs_elem (f : ℚ → ℚ) (D : ℚ → Prop) : ActsAs (elem f) D f :=
  fun a _ => ⟨a.map f, rfl, rfl, fun _ _ => rfl⟩

/-- **C55 refuted** at a breakpoint: the documentation gives `xa <= x < xb` to the middle function, but a point equal
to a breakpoint is passed to the function below it. -/
theorem C55_boundary_refuted (f g : ℚ → ℚ) (xa : ℚ) (x : NdArr ℚ) (idx : List ℕ) (hv : ValidIdx x.shape idx)
    (hx : x.get idx = xa) : ∃ r, multif [elem f, elem g] [xa] x = .ok r ∧ r.get idx = f xa := by
  obtain ⟨r, h1, _, h3⟩ := C55_dispatch_partial [xa] (by simp) [elem f, elem g] rfl (fun i => if i = 0 then f else g) x (by
    intro i p hp _
    rcases i with _ | _ | i
    · simp at hp; subst hp; exact actsAs_elem f _
    · simp at hp; subst hp; exact actsAs_elem g _
    · simp at hp)
  refine ⟨r, h1, ?_⟩
  have := h3 idx hv 0 ((inPiece_iff (by simp) _ _).2 (by simp [searchsorted, hx]))
  rw [this, hx]; rfl

/-- Three pieces, a string in the middle which is not hit, a 2 by 2 array. -/
example : ((multif [elem (fun x => 1 - x), .str "gap", elem (fun x => x ^ 2)] [0, 1]
    ⟨[2, 2], fun idx => if idx = [0, 0] then -3 else if idx = [0, 1] then 4 else if idx = [1, 0] then 0 else 3/2⟩).toOption.map
    fun r => (allIdx [2, 2]).map r.get) = some [4, 16, 1, 9/4] := by
  decide +kernel

/-! ### C56 -/

/-- **C56** (string pieces).  When every entry is a string or a function that works on its domain, the call raises
ValueError with the message of the *first* string piece whose domain contains a point of `x`, and succeeds iff no
string piece is hit. -/
theorem C56_string_pieces (bs : List X) (hs : bs.Pairwise (· < ·)) (funcs : List (Ent X Y))
    (hl : funcs.length = bs.length + 1) (φ : ℕ → X → Y) (x : NdArr X)
    (hf : ∀ i p, funcs[i]? = some p → (∃ m, p = .str m) ∨ ActsAs p (InPiece bs i) (φ i)) :
    ((∃ r, multif funcs bs x = .ok r) ↔ ¬ ∃ i m, funcs[i]? = some (.str m) ∧ Hit bs x i) ∧
    (∀ i m, funcs[i]? = some (.str m) → Hit bs x i → (∀ j < i, Hit bs x j → ∀ m', funcs[j]? ≠ some (.str m')) →
      multif funcs bs x = .error (.valueErrorMsg m)) := by
  have herr : ∀ i m, funcs[i]? = some (.str m) → Hit bs x i → (∀ j < i, Hit bs x j → ∀ m', funcs[j]? ≠ some (.str m')) →
      multif funcs bs x = .error (.valueErrorMsg m) := by
    intro i m hi ⟨idx, hv, hp⟩ hmin
    have hp := (inPiece_iff hs _ _).1 hp
    by_cases h0 : x.shape = []
    · have : idx = [] := by rw [h0] at hv; exact (validIdx_nil _).1 hv
      subst this
      unfold multif
      simp only [h0, if_true, hp, hi]; rfl
    · unfold multif
      simp only [h0, if_false]
      refine maskLoop_err (φ := φ) (D := InPiece bs) (fun idx _ => inPiece_ss hs _) funcs 0 _ i hi ⟨idx, hv, by rw [hp]; simp⟩ ?_
      intro j hj p hpj ⟨idx', hv', hi'⟩
      rw [Nat.zero_add] at hi' ⊢
      rcases hf j p hpj with ⟨m', rfl⟩ | h
      · exact absurd hpj (hmin j hj ⟨idx', hv', (inPiece_iff hs _ _).2 hi'⟩ m')
      · exact h
  refine ⟨⟨?_, ?_⟩, herr⟩
  · rintro ⟨r, hr⟩ hex
    classical
    obtain ⟨m, hm, hh⟩ := Nat.find_spec hex
    have := herr _ m hm hh (fun j hj hhj m' hm' => Nat.find_min hex hj ⟨m', hm', hhj⟩)
    rw [hr] at this; cases this
  · intro hno
    obtain ⟨r, h1, _⟩ := C55_dispatch_partial bs hs funcs hl φ x (fun i p hp hh => by
      rcases hf i p hp with ⟨m, rfl⟩ | h
      · exact absurd ⟨i, m, hp, hh⟩ hno
      · exact h)
    exact ⟨r, h1⟩

/-- The tuple `(f0, x1, f1, …)`. -/
def tupleOf : List (Ent X Y) → List X → List (Ent X Y)
  | [], _ => []
  | f :: fs, [] => f :: fs
  | f :: fs, b :: bs => f :: .num b :: tupleOf fs bs

theorem strictInc_iff (l : List X) : strictInc l = true ↔ l.Pairwise (· < ·) := by
  rw [← List.isChain_iff_pairwise]
  induction l with
  | nil => simp [strictInc]
  | cons a l ih =>
    cases l with
    | nil => simp [strictInc]
    | cons b l =>
      rw [List.isChain_cons_cons, ← ih]
      simp [strictInc]

theorem xvalsOf_num (bs : List X) : xvalsOf (bs.map (Ent.num : X → Ent X Y)) = .ok bs := by
  induction bs with
  | nil => rfl
  | cons b bs ih => simp [xvalsOf, ih, Except.map]

theorem tupleOf_parts : ∀ (fs : List (Ent X Y)) (bs : List X), fs.length = bs.length + 1 →
    evens (tupleOf fs bs) = fs ∧ odds (tupleOf fs bs) = bs.map .num
  | [], bs, h => by simp at h
  | [f], [], _ => ⟨rfl, rfl⟩
  | f :: g :: fs, [], h => by simp at h
  | f :: fs, b :: bs, h => by
    have ih := tupleOf_parts fs bs (by simpa using h)
    cases fs with
    | nil => simp at h
    | cons g fs => simp [tupleOf, evens, odds, ih.1, ih.2]

/-- **C56** (decoration): the tuple `(f0, x1, f1, …, xN, fN)` is accepted iff the breakpoints increase strictly, and
TypeError is raised otherwise. -/
theorem C56_breakpoints (fs : List (Ent X Y)) (bs : List X) (hl : fs.length = bs.length + 1) :
    setup (tupleOf fs bs) = if bs.Pairwise (· < ·) then .ok (fs, bs) else .error (.py .typeError) := by
  obtain ⟨h1, h2⟩ := tupleOf_parts fs bs hl
  unfold setup
  simp only [h1, h2, xvalsOf_num, bind, Except.bind, pure, Except.pure, throw, throwThe, MonadExceptOf.throw]
  rw [if_neg (by omega)]
  by_cases hp : bs.Pairwise (· < ·)
  · rw [if_pos hp, if_neg (by rw [(strictInc_iff bs).2 hp]; simp)]
  · rw [if_neg hp]
    have hlen : bs.length > 1 := by
      by_contra hlen
      apply hp
      rcases bs with _ | ⟨b, _ | ⟨c, bs⟩⟩
      · simp
      · simp
      · simp at hlen
    have hfalse : strictInc bs = false := by
      rw [← Bool.not_eq_true, strictInc_iff]; exact hp
    rw [if_pos ⟨hlen, hfalse⟩]

theorem evens_odds_length {α : Type} : ∀ l : List α, (evens l).length = (l.length + 1) / 2 ∧ (odds l).length = l.length / 2
  | [] => by simp [evens, odds]
  | [a] => by simp [evens, odds]
  | a :: b :: l => by
    have := evens_odds_length l
    simp only [evens, odds, List.length_cons]
    omega

theorem xvalsOf_length : ∀ (l : List (Ent X Y)) (r : List X), xvalsOf l = .ok r → r.length = l.length
  | [], r, h => by cases h; rfl
  | .num x :: l, r, h => by
    unfold xvalsOf at h
    cases hx : xvalsOf l with
    | error e => rw [hx] at h; cases h
    | ok q => rw [hx] at h; cases h; simp [xvalsOf_length l q hx]
  | .fn _ :: l, r, h => by cases h
  | .str _ :: l, r, h => by cases h

theorem xvalsOf_err : ∀ (l : List (Ent X Y)) (e : PcErr), xvalsOf l = .error e → e = .py .typeError
  | [], e, h => by cases h
  | .num x :: l, e, h => by
    unfold xvalsOf at h
    cases hx : xvalsOf l with
    | error e' => rw [hx] at h; cases h; exact xvalsOf_err l _ hx
    | ok q => rw [hx] at h; cases h
  | .fn _ :: l, e, h => by cases h; rfl
  | .str _ :: l, e, h => by cases h; rfl

/-- **C56** (decoration): a tuple of even length (as many functions as breakpoints, or empty) raises TypeError. -/
theorem C56_length (tuple : List (Ent X Y)) (h : tuple.length % 2 = 0) : setup tuple = .error (.py .typeError) := by
  have h1 := evens_odds_length tuple
  unfold setup
  simp only [bind, Except.bind, pure, Except.pure, throw, throwThe, MonadExceptOf.throw]
  cases hx : xvalsOf (odds tuple) with
  | error e => rw [xvalsOf_err _ _ hx]
  | ok r =>
    have := xvalsOf_length _ _ hx
    simp only
    rw [if_pos (by omega)]

example : setup (tupleOf [elem id, .str "no", elem id] [1, 1]) = .error (.py .typeError) := by
  rw [C56_breakpoints _ _ rfl, if_neg (by simp)]

example : multif [elem id, .str "no", elem id] [1, 2] ⟨[3], fun i => (i.getD 0 0 : ℚ)⟩ = .error (.valueErrorMsg "no") := by
  refine (C56_string_pieces [1, 2] (by simp) _ rfl (fun _ => id) _ ?_).2 1 "no" rfl
    ⟨[2], by simp [ValidIdx], (inPiece_iff (by simp) _ _).2 (by simp [searchsorted])⟩ ?_
  · intro i p hp
    rcases i with _ | _ | _ | i
    · simp at hp; subst hp; exact .inr (actsAs_elem _ _)
    · simp at hp; subst hp; exact .inl ⟨_, rfl⟩
    · simp at hp; subst hp; exact .inr (actsAs_elem _ _)
    · simp at hp
  · intro j hj _ m'
    have : j = 0 := by omega
    subst this; simp [elem]

end Npplus
