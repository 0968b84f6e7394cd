import Verif.Lemmas.FermiCheb
import Verif.Lemmas.RatPoly

/-!
# Certificates of positivity with integer arithmetic
-/

set_option linter.unusedSectionVars false
namespace Npplus
namespace Cheb

/-- `(a + b t) L + b p` -/
def mulLin (a b : ℤ) : ℤ → List ℤ → List ℤ
  | p, [] => [b * p]
  | p, x :: L => (a * x + b * p) :: mulLin a b x L

theorem evZ_mulLin (a b : ℤ) (t : ℝ) : ∀ (L : List ℤ) (p : ℤ), evZ (mulLin a b p L) t = b * p + (a + b * t) * evZ L t
  | [], p => by simp [mulLin, evZ]
  | x :: L, p => by simp only [mulLin, evZ, evZ_mulLin a b t L x]; push_cast; ring

/-- Substitution of `(a + b t)/(d + d t)`: the numerator over `(d + d t)^(len-1)`, and `(d + d t)^len`. -/
def homZ (a b d : ℤ) : List ℤ → List ℤ × List ℤ
  | [] => ([], [1])
  | c :: L =>
    let s := homZ a b d L
    (addZ (s.2.map (c * ·)) (mulLin a b 0 s.1), mulLin d d 0 s.2)

theorem homZ_spec (a b d : ℤ) (c : List ℤ) (t x : ℝ) (hx : x * (d + d * t) = a + b * t) :
    evZ (homZ a b d c).2 t = (d + d * t) ^ c.length ∧ evZ (homZ a b d c).1 t * (d + d * t) = evZ c x * (d + d * t) ^ c.length := by
  induction c with
  | nil => simp [homZ, evZ]
  | cons e L ih =>
    obtain ⟨i1, i2⟩ := ih
    refine ⟨by simp only [homZ, evZ_mulLin, i1, List.length_cons]; push_cast; ring, ?_⟩
    simp only [homZ, evZ_add, evZ_smul, evZ_mulLin, i1, List.length_cons, evZ, ← hx]
    push_cast
    calc _ = (e : ℝ) * (d + d * t) ^ L.length * (d + d * t) + x * (d + d * t) * (evZ (homZ a b d L).1 t * (d + d * t)) := by ring
      _ = _ := by rw [i2]; ring

/-- first coefficient positive, the others not negative -/
def posCoefZ : List ℤ → Bool
  | [] => false
  | a :: L => decide (0 < a) && L.all (fun q => decide (0 ≤ q))

theorem evZ_nonneg {y : ℝ} (hy : 0 ≤ y) : ∀ (c : List ℤ), (∀ a ∈ c, 0 ≤ a) → 0 ≤ evZ c y := by
  intro c
  induction c with
  | nil => intro _; simp [evZ]
  | cons a L ih =>
    intro h
    have h1 : (0 : ℝ) ≤ a := by exact_mod_cast h a (by simp)
    have h2 := ih fun b hb => h b (List.mem_cons_of_mem _ hb)
    rw [evZ]; positivity

theorem evZ_pos {c : List ℤ} (hc : posCoefZ c = true) {y : ℝ} (hy : 0 ≤ y) : 0 < evZ c y := by
  rcases c with _ | ⟨a, L⟩
  · cases hc
  · simp only [posCoefZ, Bool.and_eq_true, decide_eq_true_eq, List.all_eq_true] at hc
    have h1 : (0 : ℝ) < a := by exact_mod_cast hc.1
    have h2 := evZ_nonneg hy L hc.2
    rw [evZ]; positivity

/-- Certificate that `c` is positive from `a/d` to the last point of the list over `d`. -/
def posZ (d : ℤ) (c : List ℤ) : ℤ → List ℤ → Bool
  | _, [] => true
  | a, b :: L => decide (a < b) && posCoefZ (homZ a b d c).1 && posZ d c b L

theorem posZ_spec {d : ℤ} (hd : 0 < d) {c : List ℤ} : ∀ {l : List ℤ} {a : ℤ}, posZ d c a l = true →
    ∀ {x : ℝ}, (a : ℝ) / d ≤ x → x < (l.getLastD a : ℤ) / d → 0 < evZ c x
  | [], a, _, x, h1, h2 => by simp at h2; linarith
  | b :: l, a, h, x, h1, h2 => by
    simp only [posZ, Bool.and_eq_true, decide_eq_true_eq] at h
    obtain ⟨⟨hab, hpos⟩, hrest⟩ := h
    have hd' : (0 : ℝ) < d := by exact_mod_cast hd
    by_cases hb : x < (b : ℝ) / d
    · have hb' : 0 < (b : ℝ) - x * d := by rw [lt_div_iff₀ hd'] at hb; linarith
      have ha' : 0 ≤ x * d - a := by rw [div_le_iff₀ hd'] at h1; linarith
      set y := (x * d - a) / (b - x * d) with hy
      have hy0 : 0 ≤ y := div_nonneg ha' hb'.le
      have hx : x * (d + d * y) = a + b * y := by
        rw [hy]; field_simp; ring
      have hs := (homZ_spec a b d c y x hx).2
      have hB : 0 < (d : ℝ) + d * y := by positivity
      have hm := mul_pos (evZ_pos hpos hy0) hB
      rw [hs] at hm
      exact pos_of_mul_pos_left hm (by positivity)
    · exact posZ_spec hd hrest (by push Not at hb; exact hb) (by rw [List.getLastD_cons] at h2; exact h2)

/-- coefficients times `M`, rounded down -/
def floorQ (M : ℕ) (c : List ℚ) : List ℤ := c.map fun q : ℚ => (q * (M : ℚ)).num / ((q * (M : ℚ)).den : ℤ)

theorem floorQ_le (M : ℕ) {x : ℝ} (hx : 0 ≤ x) : ∀ c : List ℚ, evZ (floorQ M c) x ≤ M * evQ c x
  | [] => by simp [floorQ, evZ, evQ]
  | q :: c => by
    have ih := floorQ_le M hx c
    have h : (((q * (M : ℚ)).num / ((q * (M : ℚ)).den : ℤ) : ℤ) : ℝ) ≤ (q : ℝ) * M := by
      have h1 : (((q * (M : ℚ)).num / ((q * (M : ℚ)).den : ℤ) : ℤ) : ℚ) ≤ q * M := by
        rw [← Rat.floor_def']; exact Int.floor_le _
      exact_mod_cast h1
    simp only [floorQ, List.map_cons, evZ, evQ] at ih ⊢
    have := mul_le_mul_of_nonneg_left ih hx
    calc _ ≤ (q : ℝ) * M + x * (M * evQ c x) := by linarith
      _ = _ := by ring

/-- positivity of a rational polynomial -/
def posFl (M : ℕ) (d : ℤ) (c : List ℚ) (a : ℤ) (l : List ℤ) : Bool := posZ d (floorQ M c) a l

theorem posFl_spec {M : ℕ} {d : ℤ} (hd : 0 < d) {c : List ℚ} {l : List ℤ} {a : ℤ} (h : posFl M d c a l = true) (ha : 0 ≤ a)
    {x : ℝ} (h1 : (a : ℝ) / d ≤ x) (h2 : x < (l.getLastD a : ℤ) / d) : 0 < evQ c x := by
  have hx : 0 ≤ x := by
    refine le_trans ?_ h1
    have : (0 : ℝ) ≤ a := by exact_mod_cast ha
    have : (0 : ℝ) < d := by exact_mod_cast hd
    positivity
  have h3 := (posZ_spec hd h h1 h2).trans_le (floorQ_le M hx c)
  exact pos_of_mul_pos_right h3 (Nat.cast_nonneg M)

end Cheb
end Npplus
