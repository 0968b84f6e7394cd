import Verif.Model.InitMem
import Verif.Props.PwInit

/-!
# Property C99: the constructor does not change its arguments
-/

set_option linter.unusedSectionVars false
namespace Npplus
open InitMem

section
variable {K : Type} [Field K] [LinearOrder K] [IsStrictOrderedRing K] {V : Type} [AddCommGroup V] [Module K V]

/-- A call that makes a function of even degree 4 or more: at least three arrays, the last one, with one element less than `xk`, a
float array. -/
def ScalesLast (mem : List (Arr V)) (xk : List K) (args : List ℕ) : Prop :=
  ∃ z, args.getLast? = some z ∧ (val mem z).length + 1 = xk.length ∧ 3 ≤ args.length ∧ ∃ a, mem[z]? = some a ∧ a.float = true

/-- C99: the result is the function of the values of the arguments described in C05-C08. -/
theorem C99_value (inv : InvFun K) (xk : List K) (args : List ℕ) (mem : List (Arr V)) :
    (InitMem.init inv xk args mem).1 = PwPoly.init inv xk (args.map (val mem)) := by
  unfold InitMem.init
  by_cases hd : 1 < xk.length ∧ xk.getD (xk.length - 1) 0 < xk.getD 0 0
  · rw [if_pos hd]
  · rw [if_neg hd]
    unfold PwPoly.init
    rw [if_neg hd]
    unfold PwPoly.initInc
    rw [List.getLast?_map]
    rcases hz : args.getLast? with _ | z
    · rfl
    · simp only [Option.map_some]
      by_cases he : (val mem z).length + 1 = xk.length
      · rw [if_pos he, if_pos he]
        rw [← List.map_dropLast]
        by_cases h0 : args.dropLast = []
        · rw [if_pos h0, if_pos (by rw [h0]; rfl)]
        · rw [if_neg h0, if_neg (fun h => h0 (List.map_eq_nil_iff.1 h))]
          unfold initBodyMem PwPoly.initBody
          simp only
          split_ifs <;> rfl
      · rw [if_neg he, if_neg he]

theorem initBodyMem_mem (inv : InvFun K) (xk : List K) (body : List (List V)) (z : ℕ) (mem : List (Arr V)) :
    (initBodyMem inv xk body z mem).2 = mem ∨ ∃ a, mem[z]? = some a ∧ a.float = true ∧
      (initBodyMem inv xk body z mem).2 = mem.set z ⟨true, a.data.map fun v => (1 / (PwPoly.evenDiv (body.length - 1) : K)) • v⟩ := by
  unfold initBodyMem
  simp only
  split_ifs
  · exact .inl rfl
  · exact .inl rfl
  · exact .inl rfl
  · exact .inl rfl
  · exact .inl rfl
  rcases hz : mem[z]? with _ | a
  · exact .inl rfl
  · rcases hf : a.float
    · left; simp [hf]
    · right
      refine ⟨a, rfl, hf, ?_⟩
      simp [hf, val, hz]

/-- C99: all the arrays of the caller are as before, except in the calls of `ScalesLast`. -/
theorem C99_arguments_partial (inv : InvFun K) (xk : List K) (args : List ℕ) (mem : List (Arr V)) (h : ¬ ScalesLast mem xk args) :
    (InitMem.init inv xk args mem).2 = mem := by
  unfold InitMem.init
  by_cases hd : 1 < xk.length ∧ xk.getD (xk.length - 1) 0 < xk.getD 0 0
  · rw [if_pos hd]
  rw [if_neg hd]
  rcases hz : args.getLast? with _ | z
  · rfl
  · simp only
    by_cases he : (val mem z).length + 1 = xk.length
    swap
    · rw [if_neg he]
    rw [if_pos he]
    by_cases h0 : args.dropLast = []
    · rw [if_pos h0]
    · rw [if_neg h0]
      rcases initBodyMem_mem inv xk (args.dropLast.map (val mem)) z mem with h' | ⟨a, ha, hf, h'⟩
      · exact h'
      · have h2 : ¬ 3 ≤ args.length := fun h3 => h ⟨z, hz, he, h3, a, ha, hf⟩
        have hl : args.dropLast.length = 1 := by
          have : args.dropLast.length ≠ 0 := fun hh => h0 (List.eq_nil_of_length_eq_zero hh)
          rw [List.length_dropLast] at this ⊢
          omega
        rw [h']
        have e : (fun v : V => (1 / (PwPoly.evenDiv ((args.dropLast.map (val mem)).length - 1) : K)) • v) = id := by
          funext v
          have hl' : (args.dropLast.map (val mem)).length - 1 = 0 := by rw [List.length_map, hl]
          rw [hl']
          simp [PwPoly.evenDiv]
        rw [e, List.map_id]
        obtain ⟨hlt, rfl⟩ := List.getElem?_eq_some_iff.1 ha
        rcases hm : mem[z] with ⟨f, d⟩
        rw [hm] at hf
        simp only at hf
        subst hf
        rw [← hm, List.set_getElem_self]

/-- C99, every history of constructor calls: if none of them is as in `ScalesLast`, every call gives the function of the values the
arrays had at the beginning, and the arrays are as before. -/
theorem C99_history_partial (inv : InvFun K) (calls : List (List K × List ℕ)) (mem : List (Arr V))
    (h : ∀ c ∈ calls, ¬ ScalesLast mem c.1 c.2) :
    history inv calls mem = (calls.map fun c => PwPoly.init inv c.1 (c.2.map (val mem)), mem) := by
  induction calls with
  | nil => rfl
  | cons c calls ih =>
    obtain ⟨xk, args⟩ := c
    have h1 := C99_value inv xk args mem
    have h2 := C99_arguments_partial inv xk args mem (h (xk, args) List.mem_cons_self)
    unfold history
    rcases hi : InitMem.init inv xk args mem with ⟨r, m⟩
    rw [hi] at h1 h2
    simp only at h1 h2 ⊢
    rw [h1, h2, ih fun c hc => h c (List.mem_cons_of_mem _ hc)]
    rfl

/-- C99 refuted: the other calls, when they succeed, divide the caller's last array by (h+1)(h+2)...(2h), `h + 2` being the number of
arrays. -/
theorem C99_last_array_refuted (inv : InvFun K) {xk : List K} (hs : xk.Pairwise (· < ·)) (hx : 2 ≤ xk.length) {args : List ℕ} {z : ℕ} {d : List V}
    {mem : List (Arr V)} (ha : args ≠ []) (hl : ∀ r ∈ args, (val mem r).length = xk.length) (hz : mem[z]? = some ⟨true, d⟩)
    (hd : d.length + 1 = xk.length) :
    (InitMem.init inv xk (args ++ [z]) mem).2 = mem.set z ⟨true, d.map fun v => (1 / (PwPoly.evenDiv (args.length - 1) : K)) • v⟩ := by
  have hv : val mem z = d := by simp [val, hz]
  unfold InitMem.init
  rw [if_neg (not_dec hs)]
  simp only [List.getLast?_append, List.getLast?_singleton, Option.some_or, List.dropLast_concat]
  rw [hv, if_pos hd, if_neg ha]
  unfold initBodyMem
  have hh : ((args.map (val mem)).headD []).length = xk.length := by
    rcases args with _ | ⟨r, t⟩
    · exact absurd rfl ha
    · exact hl r List.mem_cons_self
  have hr : ¬ PwPoly.Ragged (args.map (val mem)) := not_ragged (m := xk.length) fun r hr => by
    obtain ⟨a, ha, rfl⟩ := List.mem_map.1 hr
    exact hl a ha
  simp only
  rw [if_neg hr, if_neg, if_neg (by omega), if_neg (by omega), if_neg (by omega), hz]
  · simp [hv]
  · rintro (h | h)
    · rw [h] at hx; simp at hx
    · rw [h] at hh; simp at hh; omega

end

/-- `y = [0, 0]; dy = [0, 0]; z = [12]; PwPoly([0, 1], y, dy, z)` twice -/
def exTwice : List (Except PyErr (PwPoly ℚ ℚ)) × List (Arr ℚ) :=
  history (adjInv ℚ) [([0, 1], [0, 1, 2]), ([0, 1], [0, 1, 2])] [⟨true, [0, 0]⟩, ⟨true, [0, 0]⟩, ⟨true, [12]⟩]

/-- C99 refuted: the same call twice gives two different functions: the values at 1/2 are 6/16 and 3/16 (that of `z` as documented would
be 12/16). -/
theorem C99_twice_refuted : exTwice.1.map (fun r => r.toOption.map (·.call (1/2))) = [some (6/16), some (3/16)] := by decide +kernel

/-- with an integer array, or a list, as last argument the calls agree -/
example : (history (adjInv ℚ) [([0, 1], [0, 1, 2]), ([0, 1], [0, 1, 2])] [⟨true, [0, 0]⟩, ⟨true, [0, 0]⟩, ⟨false, [(12 : ℚ)]⟩]).1.map
    (fun r => r.toOption.map (·.call (1/2))) = [some (6/16), some (6/16)] := by decide +kernel

/-- a call that is not of `ScalesLast`: a parabola from float arrays -/
example : ¬ ScalesLast [⟨true, [0, 0]⟩, ⟨true, [(12 : ℚ)]⟩] ([0, 1] : List ℚ) [0, 1] := by
  rintro ⟨z, _, _, h, _⟩
  simp at h

end Npplus
