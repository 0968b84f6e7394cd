import Mathlib.Data.Real.Basic
import Mathlib.Tactic

/-!
# Polynomials with rational coefficients, and certificates of positivity
-/

set_option linter.unusedSectionVars false
namespace Npplus
namespace Cheb

/-! ### rational polynomials, lowest power first -/

/-- value -/
noncomputable def evQ : List ℚ → ℝ → ℝ
  | [], _ => 0
  | a :: L, u => (a : ℝ) + u * evQ L u

/-- sum -/
def addQ : List ℚ → List ℚ → List ℚ
  | [], b => b
  | a, [] => a
  | x :: a, y :: b => (x + y) :: addQ a b

/-- product -/
def mulQ : List ℚ → List ℚ → List ℚ
  | [], _ => []
  | x :: a, b => addQ (b.map (x * ·)) (0 :: mulQ a b)

theorem evQ_add : ∀ (a b : List ℚ) (u : ℝ), evQ (addQ a b) u = evQ a u + evQ b u
  | [], b, u => by simp [addQ, evQ]
  | x :: a, [], u => by simp [addQ, evQ]
  | x :: a, y :: b, u => by simp only [addQ, evQ, evQ_add a b u]; push_cast; ring

theorem evQ_smul (c : ℚ) (a : List ℚ) (u : ℝ) : evQ (a.map (c * ·)) u = c * evQ a u := by
  induction a with
  | nil => simp [evQ]
  | cons x a ih => simp only [List.map_cons, evQ, ih]; push_cast; ring

theorem evQ_mul (a b : List ℚ) (u : ℝ) : evQ (mulQ a b) u = evQ a u * evQ b u := by
  induction a with
  | nil => simp [mulQ, evQ]
  | cons x a ih => simp only [mulQ, evQ_add, evQ_smul, evQ, ih]; push_cast; ring

theorem evQ_append (a : List ℚ) (x : ℚ) (u : ℝ) : evQ (a ++ [x]) u = evQ a u + x * u ^ a.length := by
  induction a with
  | nil => simp [evQ]
  | cons y a ih => simp only [List.cons_append, evQ, ih, List.length_cons]; ring

/-- Substitution of the fraction `A/B` into `c`: the numerator over `B^(len-1)`, and `B^len`. -/
def subst (A B : List ℚ) : List ℚ → List ℚ × List ℚ
  | [] => ([], [1])
  | c :: L =>
    let s := subst A B L
    (addQ (s.2.map (c * ·)) (mulQ A s.1), mulQ B s.2)

theorem subst_spec (A B c : List ℚ) (t x : ℝ) (hx : x * evQ B t = evQ A t) :
    evQ (subst A B c).2 t = evQ B t ^ c.length ∧ evQ (subst A B c).1 t * evQ B t = evQ c x * evQ B t ^ c.length := by
  induction c with
  | nil => simp [subst, evQ]
  | cons a L ih =>
    obtain ⟨i1, i2⟩ := ih
    refine ⟨by simp only [subst, evQ_mul, i1, List.length_cons]; ring, ?_⟩
    simp only [subst, evQ_add, evQ_smul, evQ_mul, i1, List.length_cons, evQ, ← hx]
    calc _ = (a : ℝ) * evQ B t ^ L.length * evQ B t + x * evQ B t * (evQ (subst A B L).1 t * evQ B t) := by ring
      _ = _ := by rw [i2]; ring

/-- first coefficient positive, the others not negative -/
def posCoef : List ℚ → Bool
  | [] => false
  | a :: L => decide (0 < a) && L.all (fun q => decide (0 ≤ q))

theorem evQ_pos {c : List ℚ} (hc : posCoef c = true) {y : ℝ} (hy : 0 ≤ y) : 0 < evQ c y := by
  have hnn : ∀ (c : List ℚ), (∀ a ∈ c, 0 ≤ a) → 0 ≤ evQ c y := by
    intro c
    induction c with
    | nil => intro _; simp [evQ]
    | cons a L ih =>
      intro h
      have h1 : (0 : ℝ) ≤ a := by exact_mod_cast h a (by simp)
      have h2 := ih fun b hb => h b (List.mem_cons_of_mem _ hb)
      rw [evQ]; positivity
  rcases c with _ | ⟨a, L⟩
  · cases hc
  · simp only [posCoef, Bool.and_eq_true, decide_eq_true_eq, List.all_eq_true] at hc
    have h1 : (0 : ℝ) < a := by exact_mod_cast hc.1
    have h2 := hnn L hc.2
    rw [evQ]; positivity

/-- Certificate that `c` is positive from `a` to the last point of the list, by subdivision. -/
def posOn (c : List ℚ) : ℚ → List ℚ → Bool
  | _, [] => true
  | a, b :: L => decide (a < b) && posCoef (subst [a, b] [1, 1] c).1 && posOn c b L

theorem posOn_spec {c : List ℚ} : ∀ {l : List ℚ} {a : ℚ}, posOn c a l = true →
    ∀ {ρ : ℝ}, (a : ℝ) ≤ ρ → ρ < (l.getLastD a : ℚ) → 0 < evQ c ρ
  | [], a, _, ρ, h1, h2 => by simp at h2; linarith
  | b :: l, a, h, ρ, h1, h2 => by
    simp only [posOn, Bool.and_eq_true, decide_eq_true_eq] at h
    obtain ⟨⟨hab, hpos⟩, hrest⟩ := h
    by_cases hb : ρ < b
    · have hb' : 0 < (b : ℝ) - ρ := by linarith
      have hab' : (a : ℝ) < b := by exact_mod_cast hab
      set y := (ρ - a) / (b - ρ) with hy
      have hy0 : 0 ≤ y := div_nonneg (by linarith) hb'.le
      have hx : ρ * evQ [1, 1] y = evQ [a, b] y := by
        simp only [evQ, hy]; push_cast; field_simp; ring
      have := (subst_spec [a, b] [1, 1] c y ρ hx).2
      have hB : 0 < evQ [1, 1] y := by simp only [evQ]; push_cast; linarith
      have hm := mul_pos (evQ_pos hpos hy0) hB
      rw [this] at hm
      exact pos_of_mul_pos_left hm (by positivity)
    · exact posOn_spec hrest (by push Not at hb; exact hb) (by rw [List.getLastD_cons] at h2; exact h2)

theorem evQ_scale {M : ℚ} (hM : 0 < M) {c : List ℚ} {u : ℝ} (h : 0 < evQ (c.map (M * ·)) u) : 0 < evQ c u := by
  rw [evQ_smul] at h
  have : (0 : ℝ) < M := by exact_mod_cast hM
  exact pos_of_mul_pos_right h this.le

end Cheb
end Npplus
