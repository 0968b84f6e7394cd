import Verif.Lemmas.PosCert

/-!
# Certificates of positivity with natural numbers

As `PosCert`, with the positive and the negative coefficients kept apart: the kernel evaluates sums and products of natural
numbers directly.
-/

set_option linter.unusedSectionVars false
namespace Npplus
namespace Cheb

/-- value of a polynomial -/
def evN : List ℕ → ℝ → ℝ
  | [], _ => 0
  | c :: L, u => c + u * evN L u

def addN : List ℕ → List ℕ → List ℕ
  | [], b => b
  | a, [] => a
  | x :: a, y :: b => Nat.add x y :: addN a b

theorem evN_add : ∀ (a b : List ℕ) (u : ℝ), evN (addN a b) u = evN a u + evN b u
  | [], b, u => by simp [addN, evN]
  | x :: a, [], u => by simp [addN, evN]
  | x :: a, y :: b, u => by
    have : ((Nat.add x y : ℕ) : ℝ) = x + y := by rw [Nat.add_eq]; push_cast; ring
    simp only [addN, evN, evN_add a b u, this]; ring

theorem evN_smul (c : ℕ) (a : List ℕ) (u : ℝ) : evN (a.map (Nat.mul c ·)) u = c * evN a u := by
  induction a with
  | nil => simp [evN]
  | cons x a ih =>
    have : ((Nat.mul c x : ℕ) : ℝ) = c * x := by rw [Nat.mul_eq]; push_cast; ring
    simp only [List.map_cons, evN, ih, this]; ring

/-- `(a + b t) L + b p` -/
def mulLinN (a b : ℕ) : ℕ → List ℕ → List ℕ
  | p, [] => [Nat.mul b p]
  | p, x :: L => Nat.add (Nat.mul a x) (Nat.mul b p) :: mulLinN a b x L

theorem evN_mulLin (a b : ℕ) (t : ℝ) : ∀ (L : List ℕ) (p : ℕ), evN (mulLinN a b p L) t = b * p + (a + b * t) * evN L t
  | [], p => by
    have : ((Nat.mul b p : ℕ) : ℝ) = b * p := by rw [Nat.mul_eq]; push_cast; ring
    simp [mulLinN, evN]
  | x :: L, p => by
    have : ((Nat.add (Nat.mul a x) (Nat.mul b p) : ℕ) : ℝ) = a * x + b * p := by
      rw [Nat.add_eq, Nat.mul_eq, Nat.mul_eq]; push_cast; ring
    simp only [mulLinN, evN, evN_mulLin a b t L x, this]; ring

/-- Substitution of `(a + b t)/(d + d t)`: the numerator over `(d + d t)^(len-1)`, and `(d + d t)^len`. -/
def homN (a b d : ℕ) : List ℕ → List ℕ × List ℕ
  | [] => ([], [1])
  | c :: L =>
    let s := homN a b d L
    (addN (s.2.map (Nat.mul c ·)) (mulLinN a b 0 s.1), mulLinN d d 0 s.2)

theorem homN_spec (a b d : ℕ) (c : List ℕ) (t x : ℝ) (hx : x * (d + d * t) = a + b * t) :
    evN (homN a b d c).2 t = (d + d * t) ^ c.length ∧ evN (homN a b d c).1 t * (d + d * t) = evN c x * (d + d * t) ^ c.length := by
  induction c with
  | nil => simp [homN, evN]
  | cons e L ih =>
    obtain ⟨i1, i2⟩ := ih
    refine ⟨by simp only [homN, evN_mulLin, i1, List.length_cons]; push_cast; ring, ?_⟩
    simp only [homN, evN_add, evN_smul, evN_mulLin, i1, List.length_cons, evN, ← hx]
    push_cast
    calc _ = (e : ℝ) * (d + d * t) ^ L.length * (d + d * t) + x * (d + d * t) * (evN (homN a b d L).1 t * (d + d * t)) := by ring
      _ = _ := by rw [i2]; ring

/-- coefficientwise comparison -/
def leN : List ℕ → List ℕ → Bool
  | [], _ => true
  | _ :: _, [] => false
  | x :: a, y :: b => Nat.ble x y && leN a b

theorem evN_nonneg {y : ℝ} (hy : 0 ≤ y) : ∀ (c : List ℕ), 0 ≤ evN c y
  | [] => le_rfl
  | a :: L => by have := evN_nonneg hy L; rw [evN]; positivity

theorem leN_spec {y : ℝ} (hy : 0 ≤ y) : ∀ {a b : List ℕ}, leN a b = true → evN a y ≤ evN b y
  | [], b, _ => evN_nonneg hy b
  | x :: a, z :: b, h => by
    simp only [leN, Bool.and_eq_true, Nat.ble_eq] at h
    have h1 : (x : ℝ) ≤ z := by exact_mod_cast h.1
    have h2 := mul_le_mul_of_nonneg_left (leN_spec hy h.2) hy
    rw [evN, evN]; linarith

/-- first coefficient larger, the others not smaller -/
def ltN : List ℕ → List ℕ → Bool
  | x :: a, y :: b => Nat.ble (x + 1) y && leN a b
  | _, _ => false

theorem ltN_spec {y : ℝ} (hy : 0 ≤ y) {a b : List ℕ} (h : ltN a b = true) : evN a y < evN b y := by
  rcases a with _ | ⟨x, a⟩ <;> rcases b with _ | ⟨z, b⟩ <;> simp only [ltN, Bool.and_eq_true, Nat.ble_eq] at h
  all_goals try cases h
  rename_i h1 h2
  have h1 : (x : ℝ) + 1 ≤ z := by exact_mod_cast h1
  have h2 := mul_le_mul_of_nonneg_left (leN_spec hy h2) hy
  rw [evN, evN]; linarith

/-- Certificate that `p - n` is positive from `a/d` to the last point of the list over `d`. -/
def posN (d : ℕ) (p n : List ℕ) : ℕ → List ℕ → Bool
  | _, [] => true
  | a, b :: L => Nat.ble (a + 1) b && ltN (homN a b d n).1 (homN a b d p).1 && posN d p n b L

theorem posN_spec {d : ℕ} (hd : 0 < d) {p n : List ℕ} (hpn : p.length = n.length) : ∀ {l : List ℕ} {a : ℕ}, posN d p n a l = true →
    ∀ {x : ℝ}, (a : ℝ) / d ≤ x → x < (l.getLastD a : ℕ) / d → evN n x < evN p x
  | [], a, _, x, h1, h2 => by simp at h2; linarith
  | b :: l, a, h, x, h1, h2 => by
    simp only [posN, Bool.and_eq_true, Nat.ble_eq] at h
    obtain ⟨⟨hab, hpos⟩, hrest⟩ := h
    have hd' : (0 : ℝ) < d := by exact_mod_cast hd
    by_cases hb : x < (b : ℝ) / d
    · have hb' : 0 < (b : ℝ) - x * d := by rw [lt_div_iff₀ hd'] at hb; linarith
      have ha' : 0 ≤ x * d - a := by rw [div_le_iff₀ hd'] at h1; linarith
      set y := (x * d - a) / (b - x * d) with hy
      have hy0 : 0 ≤ y := div_nonneg ha' hb'.le
      have hx : x * (d + d * y) = a + b * y := by
        rw [hy]; field_simp; ring
      have hs := (homN_spec a b d p y x hx).2
      have hs' := (homN_spec a b d n y x hx).2
      have hB : 0 < (d : ℝ) + d * y := by positivity
      have hm := mul_lt_mul_of_pos_right (ltN_spec hy0 hpos) hB
      rw [hs, hs', hpn] at hm
      exact lt_of_mul_lt_mul_right hm (by positivity)
    · exact posN_spec hd hpn hrest (by push Not at hb; exact hb) (by rw [List.getLastD_cons] at h2; exact h2)

def natPart : ℤ → ℕ
  | .ofNat n => n
  | .negSucc _ => 0

def negPart : ℤ → ℕ
  | .ofNat _ => 0
  | .negSucc n => Nat.succ n

theorem parts (z : ℤ) : (z : ℝ) = natPart z - negPart z := by
  rcases z with n | n
  · simp [natPart, negPart]
  · rw [natPart, negPart, Int.cast_negSucc]; push_cast; ring

theorem evN_parts (u : ℝ) : ∀ c : List ℤ, evZ c u = evN (c.map natPart) u - evN (c.map negPart) u
  | [] => by simp [evZ, evN]
  | z :: c => by simp only [evZ, List.map_cons, evN, evN_parts u c, parts z]; ring

/-- positivity of an integer polynomial -/
def posZN (d : ℕ) (c : List ℤ) (a : ℕ) (l : List ℕ) : Bool := posN d (c.map natPart) (c.map negPart) a l

theorem posZN_spec {d : ℕ} (hd : 0 < d) {c : List ℤ} {a : ℕ} {l : List ℕ} (h : posZN d c a l = true)
    {x : ℝ} (h1 : (a : ℝ) / d ≤ x) (h2 : x < (l.getLastD a : ℕ) / d) : 0 < evZ c x := by
  rw [evN_parts]
  have := posN_spec hd (by simp) h h1 h2
  linarith

end Cheb
end Npplus
