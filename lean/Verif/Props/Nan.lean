import Verif.Spec.Nan
import Verif.Props.PwCore
import Verif.Props.Pcwise

/-!
# Property C97: NaN

The functions of the model are run on `WithNan K`: numbers and NaN.
-/

set_option linter.unusedSectionVars false
namespace Npplus
open Npplus.Spec

section
variable {K : Type} [Field K] [LinearOrder K]
open WithNan

/-- the same PwPoly in arithmetic with NaN; each coefficient may be NaN -/
def withNan (xk : List K) (n : ℕ) (c : List (List (WithNan K))) : PwPoly (WithNan K) (WithNan K) := ⟨xk.map num, n, c⟩

theorem foldl_num (x : K) : ∀ (l : List K) (p : K),
    (l.map num).foldl (fun (p cn : WithNan K) => (num x : WithNan K) • p + cn) (num p) = num (l.foldl (fun p cn => x • p + cn) p)
  | [], _ => rfl
  | a :: l, p => by
    rw [List.map_cons, List.foldl_cons, num_smul, num_add, foldl_num x l]
    rfl

theorem foldl_nan (x : WithNan K) : ∀ (l : List (WithNan K)) (p : WithNan K), (p = nan ∨ nan ∈ l ∨ (x = nan ∧ l ≠ [])) →
    l.foldl (fun p cn => x • p + cn) p = nan
  | [], p, h => by simpa using h
  | a :: l, p, h => by
    rw [List.foldl_cons]
    refine foldl_nan x l _ ?_
    rcases h with rfl | h | ⟨rfl, _⟩
    · left; rw [smul_nan, nan_add]
    · rcases List.mem_cons.1 h with rfl | h
      · left; rw [add_nan]
      · right; left; exact h
    · left; rw [nan_smul, nan_add]

theorem polyfun_concat {K V : Type} [Zero V] [Add V] [SMul K V] (l : List V) (a b : V) (x : K) :
    polyfun ((l.concat a).concat b) x = l.reverse.foldl (fun p cn => x • p + cn) (a + x • b) := by
  simp [polyfun, backFrom3, polysetup]

/-- `polyfun` of numbers is a number, the same one as without NaN. -/
theorem polyfun_num (c : List K) (x : K) : polyfun (c.map num) (num x : WithNan K) = num (polyfun c x) := by
  rcases List.eq_nil_or_concat c with rfl | ⟨c', b, rfl⟩
  · rfl
  rcases List.eq_nil_or_concat c' with rfl | ⟨c'', a, rfl⟩
  · rfl
  rw [List.map_concat, List.map_concat, polyfun_concat, polyfun_concat, num_smul, num_add, ← List.map_reverse, foldl_num]
  rfl

/-- `polyfun` is NaN if the argument (with two coefficients or more) or a coefficient is. -/
theorem polyfun_nan (c : List (WithNan K)) (x : WithNan K) (h : nan ∈ c ∨ (x = nan ∧ 2 ≤ c.length)) : polyfun c x = nan := by
  rcases List.eq_nil_or_concat c with rfl | ⟨c', b, rfl⟩
  · simp at h
  rcases List.eq_nil_or_concat c' with rfl | ⟨c'', a, rfl⟩
  · simp at h
    simp [polyfun, backFrom3, polysetup, ← h]
  rw [polyfun_concat]
  refine foldl_nan x _ _ ?_
  rcases h with h | ⟨rfl, _⟩
  · simp at h
    rcases h with h | rfl | rfl
    · right; left; simpa using h
    · left; rw [nan_add]
    · left; rw [smul_nan, add_nan]
  · left; rw [nan_smul, add_nan]

theorem searchsorted_num (xk : List K) (x : K) : searchsorted (xk.map num) (num x : WithNan K) = searchsorted xk x := by
  unfold searchsorted
  rw [List.countP_map]
  congr 1
  funext k
  simp [num_lt]

theorem searchsorted_nan (xk : List K) : searchsorted (xk.map num) (nan : WithNan K) = xk.length := by
  unfold searchsorted
  rw [List.countP_map, List.countP_eq_length]
  intro a _
  simp [num_lt_nan]

/-- C97.  A PwPoly without NaN evaluated at a number gives the number it gives in exact arithmetic. -/
theorem C97_numbers {p : PwPoly K K} (x : K) :
    (withNan p.xk p.n (p.c.map (·.map num))).call (num x) = num (p.call x) := by
  unfold PwPoly.call withNan PwPoly.xk0 PwPoly.mkXk0
  simp only [searchsorted_num]
  rw [← List.map_take, ← List.map_append, zero_def, List.getD_map, num_sub, show ([] : List (WithNan K)) = ([] : List K).map num from rfl,
    List.getD_map, polyfun_num]

/-- C97.  For a degree of 1 or more, the value is NaN exactly if the argument is NaN or, when the argument is a number, the piece
containing it has a NaN coefficient: a NaN coefficient does not spread to other pieces. -/
theorem C97_nan_iff_partial {xk : List K} {n : ℕ} {c : List (List (WithNan K))} (hinc : xk.Pairwise (· < ·))
    (hc : c.length = xk.length + 1) (hrow : ∀ l ∈ c, l.length = n) (hn : 2 ≤ n) :
    (withNan xk n c).call nan = nan ∧
    ∀ x i, InPiece xk i x → ((withNan xk n c).call (num x) = nan ↔ nan ∈ c.getD i []) := by
  have hlen : ∀ i, i ≤ xk.length → (c.getD i []).length = n := by
    intro i hi
    rw [List.getD_eq_getElem _ _ (by omega)]
    exact hrow _ (List.getElem_mem _)
  constructor
  · unfold PwPoly.call withNan
    simp only [searchsorted_nan, nan_sub]
    exact polyfun_nan _ _ (.inr ⟨rfl, by rw [hlen _ le_rfl]; exact hn⟩)
  · intro x i hi
    unfold PwPoly.call withNan PwPoly.xk0 PwPoly.mkXk0
    simp only [searchsorted_num, hi.eq_searchsorted]
    rw [← List.map_take, ← List.map_append, zero_def, List.getD_map, num_sub]
    constructor
    · intro h
      by_contra hne
      obtain ⟨l, hl⟩ : ∃ l : List K, c.getD i [] = l.map num := by
        generalize c.getD i [] = l at hne
        clear h
        induction l with
        | nil => exact ⟨[], rfl⟩
        | cons a l ih =>
          simp only [List.mem_cons, not_or] at hne
          obtain ⟨m, hm⟩ := ih hne.2
          rcases cases a with rfl | ⟨y, rfl⟩
          · exact absurd rfl hne.1
          · exact ⟨y :: m, by rw [hm]; rfl⟩
      rw [hl, polyfun_num] at h
      exact nan_ne_num _ h.symm
    · intro h
      exact polyfun_nan _ _ (.inl h)

/-- C97 refuted for piecewise constants: the value of a histogram at NaN is the constant beyond the last knot, not NaN. -/
theorem C97_histogram_refuted {xk : List K} (h : List K) (v : K) (hl : h.length = xk.length) :
    (withNan xk 1 ((h.map fun t => [num t]) ++ [[num v]])).call nan = num v ∧ (num v : WithNan K) ≠ nan := by
  refine ⟨?_, (nan_ne_num _).symm⟩
  unfold PwPoly.call withNan
  simp only [searchsorted_nan]
  rw [List.getD_append_right _ _ _ _ (by simp [hl])]
  simp [hl, polyfun, backFrom3, polysetup]

/-- the elements that belong to interval `i`: its numbers, and NaN to the last one -/
def InPieceNan (bs : List K) (i : ℕ) (t : WithNan K) : Prop := (∃ y, t = num y ∧ InPiece bs i y) ∨ (t = nan ∧ i = bs.length)

open Pcwise in
/-- C97.  A `pcwise` function passes the NaN elements of its argument to the function of the last interval, and the other elements to
the function of their interval: each function is called with the elements of its interval only. -/
theorem C97_pcwise {Y : Type} [Zero Y] (bs : List K) (hs : bs.Pairwise (· < ·)) (funcs : List (Ent (WithNan K) Y))
    (hl : funcs.length = bs.length + 1) (φ : ℕ → WithNan K → Y) (x : NdArr (WithNan K))
    (hf : ∀ i p, funcs[i]? = some p → (∃ idx, ValidIdx x.shape idx ∧ InPieceNan bs i (x.get idx)) → ActsAs p (InPieceNan bs i) (φ i)) :
    ∃ r, multif funcs (bs.map num) x = .ok r ∧ r.shape = x.shape ∧ ∀ idx, ValidIdx x.shape idx →
      (x.get idx = nan → r.get idx = φ bs.length nan) ∧
      ∀ y i, x.get idx = num y → InPiece bs i y → r.get idx = φ i (num y) := by
  have hs' : (bs.map num : List (WithNan K)).Pairwise (· < ·) := by
    rw [List.pairwise_map]
    exact hs.imp fun h => num_lt.2 h
  have hconv : ∀ i (t : WithNan K), InPiece (bs.map num) i t ↔ InPieceNan bs i t := by
    intro i t
    rw [inPiece_iff hs' t i]
    unfold InPieceNan
    rcases cases t with rfl | ⟨y, rfl⟩
    · rw [searchsorted_nan]
      constructor
      · intro h; exact .inr ⟨rfl, h.symm⟩
      · rintro (⟨y, h, _⟩ | ⟨_, h⟩)
        · exact absurd h (nan_ne_num _)
        · exact h.symm
    · rw [searchsorted_num]
      constructor
      · rintro rfl; exact .inl ⟨y, rfl, inPiece_searchsorted hs y⟩
      · rintro (⟨z, h, hz⟩ | ⟨h, _⟩)
        · rw [num_inj.1 h]; exact hz.eq_searchsorted
        · exact absurd h.symm (nan_ne_num _)
  have hset : ∀ i, (InPiece (bs.map num) i : WithNan K → Prop) = InPieceNan bs i := fun i => funext fun t => propext (hconv i t)
  obtain ⟨r, h1, h2, h3⟩ := C55_dispatch_partial (bs.map num) hs' funcs (by simpa using hl) φ x (by
    rintro i p hp ⟨idx, hv, hi⟩
    rw [hset]
    exact hf i p hp ⟨idx, hv, (hconv _ _).1 hi⟩)
  refine ⟨r, h1, h2, fun idx hv => ⟨fun h => ?_, fun y i h hi => ?_⟩⟩
  · rw [h3 idx hv bs.length ((hconv _ _).2 (.inr ⟨h, rfl⟩)), h]
  · rw [h3 idx hv i ((hconv _ _).2 (.inl ⟨y, h, hi⟩)), h]

/-! ### examples -/

/-- a line with a NaN in its second piece, evaluated at numbers in both and at NaN -/
example : (withNan [(0 : ℚ)] 2 [[num 1, num 2], [num 1, nan]]).call (num (-3)) ≠ nan ∧
    (withNan [(0 : ℚ)] 2 [[num 1, num 2], [num 1, nan]]).call (num 3) = nan ∧
    (withNan [(0 : ℚ)] 2 [[num 1, num 2], [num 1, num 5]]).call nan = nan := by
  have a := C97_nan_iff_partial (xk := [(0 : ℚ)]) (n := 2) (c := [[num 1, num 2], [num 1, nan]]) (by simp) rfl (by simp) le_rfl
  have b := C97_nan_iff_partial (xk := [(0 : ℚ)]) (n := 2) (c := [[num 1, num 2], [num 1, num 5]]) (by simp) rfl (by simp) le_rfl
  refine ⟨fun h => ?_, (a.2 3 1 ⟨by simp, by simp, by simp⟩).2 (by simp), b.1⟩
  have := (a.2 (-3) 0 ⟨by simp, by simp, by simp⟩).1 h
  simp [nan_ne_num] at this

example : ∃ r, Pcwise.multif [.fn fun a => .ok (a.map fun _ => (1 : ℚ)), .fn fun a => .ok (a.map fun _ => (2 : ℚ))] ([(0 : ℚ)].map num)
    ⟨[2], fun idx => if idx = [0] then nan else num (-1)⟩ = .ok r ∧ r.get [0] = 2 ∧ r.get [1] = 1 := by
  obtain ⟨r, h1, h2, h3⟩ := C97_pcwise [(0 : ℚ)] (by simp)
    [.fn fun a => .ok (a.map fun _ => (1 : ℚ)), .fn fun a => .ok (a.map fun _ => (2 : ℚ))] rfl
    (fun i _ => if i = 0 then 1 else 2) ⟨[2], fun idx => if idx = [0] then nan else num (-1)⟩ (by
      intro i p hp _
      rcases i with _ | _ | i
      · simp at hp; subst hp; exact fun a _ => ⟨_, rfl, rfl, fun _ _ => rfl⟩
      · simp at hp; subst hp; exact fun a _ => ⟨_, rfl, rfl, fun _ _ => rfl⟩
      · simp at hp)
  refine ⟨r, h1, ?_, ?_⟩
  · have := (h3 [0] ⟨rfl, by simp⟩).1 (by simp)
    simpa using this
  · have := (h3 [1] ⟨rfl, by simp⟩).2 (-1) 0 (by simp) ⟨by simp, by simp, by simp⟩
    simpa using this

end
end Npplus
