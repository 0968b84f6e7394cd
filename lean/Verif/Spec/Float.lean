import Mathlib.Data.Real.Basic
import Mathlib.Data.Int.Log
import Mathlib.Algebra.Order.Round
import Mathlib.Algebra.Order.Archimedean.Real.Basic
import Mathlib.Algebra.Module.Defs
import Mathlib.Tactic.Linarith
import Mathlib.Tactic.Positivity
import Mathlib.Tactic.FieldSimp
import Mathlib.Algebra.Order.Field.Power

/-!
# Specification vocabulary: floating point arithmetic

Rounded arithmetic without overflow and underflow: every operation is the exact one followed by a rounding.  The model's
functions that use only operations (not their laws) are run on these numbers.
-/

namespace Npplus.Spec

/-- A floating point system: the representable numbers `F` and the rounding `rd`. -/
structure FloatSys where
  /-- the representable numbers -/
  F : Set ℝ
  /-- rounding -/
  rd : ℝ → ℝ
  /-- unit roundoff, 2^-53 for IEEE double precision -/
  u : ℝ
  u_nonneg : 0 ≤ u
  mem : ∀ x, rd x ∈ F
  fix : ∀ x ∈ F, rd x = x
  mono : Monotone rd
  rel : ∀ x, |rd x - x| ≤ u * |x|
  zero_mem : 0 ∈ F
  /-- the integers up to 1/u are representable -/
  int_mem : ∀ n : ℤ, |(n : ℝ)| * u ≤ 1 → (n : ℝ) ∈ F
  /-- the base is 2 -/
  two_mul : ∀ x ∈ F, 2 * x ∈ F
  half : ∀ x ∈ F, x / 2 ∈ F

/-- The numbers of a floating point system. -/
def FloatSys.Num (s : FloatSys) : Type := {x : ℝ // x ∈ s.F}

namespace FloatSys
variable {s : FloatSys}

/-- the real number represented -/
def Num.val (x : s.Num) : ℝ := Subtype.val x

/-- the representable number obtained by rounding -/
def round (s : FloatSys) (x : ℝ) : s.Num := ⟨s.rd x, s.mem x⟩

instance : Zero s.Num := ⟨⟨0, s.zero_mem⟩⟩
noncomputable instance : One s.Num := ⟨s.round 1⟩
noncomputable instance : NatCast s.Num := ⟨fun n => s.round n⟩
noncomputable instance : IntCast s.Num := ⟨fun n => s.round n⟩
noncomputable instance : Add s.Num := ⟨fun x y => s.round (x.val + y.val)⟩
noncomputable instance : Sub s.Num := ⟨fun x y => s.round (x.val - y.val)⟩
noncomputable instance : Mul s.Num := ⟨fun x y => s.round (x.val * y.val)⟩
noncomputable instance : Div s.Num := ⟨fun x y => s.round (x.val / y.val)⟩
noncomputable instance : LinearOrder s.Num := inferInstanceAs (LinearOrder {x : ℝ // x ∈ s.F})

@[simp] theorem val_round (x : ℝ) : (s.round x).val = s.rd x := rfl
@[simp] theorem val_zero : (0 : s.Num).val = 0 := rfl
theorem val_add (x y : s.Num) : (x + y).val = s.rd (x.val + y.val) := rfl
theorem val_sub (x y : s.Num) : (x - y).val = s.rd (x.val - y.val) := rfl
theorem val_mul (x y : s.Num) : (x * y).val = s.rd (x.val * y.val) := rfl
theorem val_smul (x y : s.Num) : (x • y).val = s.rd (x.val * y.val) := rfl
theorem val_div (x y : s.Num) : (x / y).val = s.rd (x.val / y.val) := rfl
theorem val_natCast (n : ℕ) : ((n : s.Num)).val = s.rd n := rfl
theorem val_intCast (n : ℤ) : ((n : s.Num)).val = s.rd n := rfl
theorem val_one : (1 : s.Num).val = s.rd 1 := rfl
theorem rd_val (x : s.Num) : s.rd x.val = x.val := s.fix _ x.2
theorem val_lt {x y : s.Num} : x.val < y.val ↔ x < y := Iff.rfl
theorem val_le {x y : s.Num} : x.val ≤ y.val ↔ x ≤ y := Iff.rfl
theorem val_inj {x y : s.Num} : x.val = y.val ↔ x = y := Subtype.val_inj

end FloatSys

/-! ### binary floating point numbers of any precision are such a system -/

namespace Binary

/-- round a positive number to `p` significant bits -/
noncomputable def rdPos (p : ℕ) (x : ℝ) : ℝ := (round (x / 2 ^ (Int.log 2 x - p)) : ℤ) * (2 : ℝ) ^ (Int.log 2 x - p)

/-- round to `p + 1` significant bits -/
noncomputable def rd (p : ℕ) (x : ℝ) : ℝ := if 0 < x then rdPos p x else if x < 0 then -rdPos p (-x) else 0

variable (p : ℕ) {x y : ℝ}

theorem scaled (hx : 0 < x) : (2 : ℝ) ^ p ≤ x / 2 ^ (Int.log 2 x - p) ∧ x / 2 ^ (Int.log 2 x - p) < 2 ^ (p + 1) := by
  have h1 : ((2 : ℕ) : ℝ) ^ Int.log 2 x ≤ x := Int.zpow_log_le_self one_lt_two hx
  have h2 : x < ((2 : ℕ) : ℝ) ^ (Int.log 2 x + 1) := Int.lt_zpow_succ_log_self one_lt_two x
  push_cast at h1 h2
  have h0 : (0 : ℝ) < 2 ^ (Int.log 2 x - p) := by positivity
  rw [le_div_iff₀ h0, div_lt_iff₀ h0, ← zpow_natCast, ← zpow_natCast, ← zpow_add₀ two_ne_zero, ← zpow_add₀ two_ne_zero]
  push_cast
  rw [show (p : ℤ) + (Int.log 2 x - p) = Int.log 2 x by ring, show (p : ℤ) + 1 + (Int.log 2 x - p) = Int.log 2 x + 1 by ring]
  exact ⟨h1, h2⟩

theorem round_mono {a b : ℝ} (h : a ≤ b) : round a ≤ round b := by
  rw [round_eq, round_eq]
  exact Int.floor_le_floor (by linarith)

theorem mantissa (hx : 0 < x) : (2 : ℤ) ^ p ≤ round (x / 2 ^ (Int.log 2 x - p)) ∧ round (x / 2 ^ (Int.log 2 x - p)) ≤ 2 ^ (p + 1) := by
  obtain ⟨h1, h2⟩ := scaled p hx
  have a : round (((2 : ℤ) ^ p : ℤ) : ℝ) ≤ round (x / 2 ^ (Int.log 2 x - p)) := round_mono (by push_cast; exact h1)
  have b : round (x / 2 ^ (Int.log 2 x - p)) ≤ round (((2 : ℤ) ^ (p + 1) : ℤ) : ℝ) := round_mono (by push_cast; exact h2.le)
  rw [round_intCast] at a b
  exact ⟨a, b⟩

theorem rdPos_pos (hx : 0 < x) : 0 < rdPos p x := by
  have h := (mantissa p hx).1
  have : (0 : ℤ) < round (x / 2 ^ (Int.log 2 x - p)) := lt_of_lt_of_le (by positivity) h
  unfold rdPos
  have : (0 : ℝ) < (round (x / 2 ^ (Int.log 2 x - p)) : ℤ) := by exact_mod_cast this
  positivity

theorem rdPos_err (hx : 0 < x) : |rdPos p x - x| ≤ 1 / 2 ^ (p + 1) * x := by
  have h0 : (0 : ℝ) < 2 ^ (Int.log 2 x - p) := by positivity
  have h := abs_sub_round (x / 2 ^ (Int.log 2 x - p))
  have e : rdPos p x - x = -((x / 2 ^ (Int.log 2 x - p) - round (x / 2 ^ (Int.log 2 x - p))) * 2 ^ (Int.log 2 x - p)) := by
    unfold rdPos
    have : x = x / 2 ^ (Int.log 2 x - p) * 2 ^ (Int.log 2 x - p) := (div_mul_cancel₀ _ h0.ne').symm
    linarith
  rw [e, abs_neg, abs_mul, abs_of_pos h0]
  have h1 := (scaled p hx).1
  rw [le_div_iff₀ h0] at h1
  have hp : (0 : ℝ) < 2 ^ p := by positivity
  calc _ ≤ 1 / 2 * (2 : ℝ) ^ (Int.log 2 x - p) := by gcongr
    _ = 1 / 2 ^ (p + 1) * (2 ^ p * 2 ^ (Int.log 2 x - p)) := by rw [pow_succ]; field_simp
    _ ≤ _ := by gcongr

theorem rdPos_mono (hx : 0 < x) (hxy : x ≤ y) : rdPos p x ≤ rdPos p y := by
  have hy : 0 < y := hx.trans_le hxy
  rcases (Int.log_mono_right hx hxy (b := 2)).lt_or_eq with h | h
  · have a := (mantissa p hx).2
    have b := (mantissa p hy).1
    have a' : ((round (x / 2 ^ (Int.log 2 x - p)) : ℤ) : ℝ) ≤ 2 ^ (p + 1) := by exact_mod_cast a
    have b' : (2 : ℝ) ^ p ≤ ((round (y / 2 ^ (Int.log 2 y - p)) : ℤ) : ℝ) := by exact_mod_cast b
    unfold rdPos
    calc _ ≤ (2 : ℝ) ^ (p + 1) * 2 ^ (Int.log 2 x - p) := by gcongr
      _ = 2 ^ (Int.log 2 x + 1) := by
        rw [← zpow_natCast, ← zpow_add₀ two_ne_zero]; congr 1; push_cast; ring
      _ ≤ 2 ^ (Int.log 2 y) := zpow_le_zpow_right₀ one_le_two h
      _ = 2 ^ p * 2 ^ (Int.log 2 y - p) := by
        rw [← zpow_natCast, ← zpow_add₀ two_ne_zero]; congr 1; ring
      _ ≤ _ := by gcongr
  · unfold rdPos
    rw [h]
    have : round (x / 2 ^ (Int.log 2 y - p)) ≤ round (y / 2 ^ (Int.log 2 y - p)) := round_mono (by gcongr)
    have : ((round (x / 2 ^ (Int.log 2 y - p)) : ℤ) : ℝ) ≤ (round (y / 2 ^ (Int.log 2 y - p)) : ℤ) := by exact_mod_cast this
    gcongr

/-- the numbers with at most `p + 1` significant bits -/
def F : Set ℝ := {y | ∃ m e : ℤ, |m| ≤ 2 ^ (p + 1) ∧ y = m * (2 : ℝ) ^ e}

theorem rdPos_mem (hx : 0 < x) : rdPos p x ∈ F p := by
  refine ⟨_, _, ?_, rfl⟩
  have := mantissa p hx
  rw [abs_of_nonneg (le_trans (by positivity) this.1)]
  exact this.2

theorem neg_mem {y : ℝ} (h : y ∈ F p) : -y ∈ F p := by
  obtain ⟨m, e, h, rfl⟩ := h
  exact ⟨-m, e, by rwa [abs_neg], by push_cast; ring⟩

theorem rdPos_fix {y : ℝ} (h : y ∈ F p) (hy : 0 < y) : rdPos p y = y := by
  obtain ⟨m, e, hm, rfl⟩ := h
  have h0 : (0 : ℝ) < 2 ^ (Int.log 2 ((m : ℝ) * 2 ^ e) - p) := by positivity
  suffices ∃ k : ℤ, (m : ℝ) * 2 ^ e / 2 ^ (Int.log 2 ((m : ℝ) * 2 ^ e) - p) = k by
    obtain ⟨k, hk⟩ := this
    unfold rdPos
    rw [hk, round_intCast, ← hk, div_mul_cancel₀ _ h0.ne']
  have he : (0 : ℝ) < 2 ^ e := by positivity
  have hm0 : 0 < m := by
    have : (0 : ℝ) < m := by by_contra hn; nlinarith [not_lt.1 hn]
    exact_mod_cast this
  rw [abs_of_pos hm0] at hm
  rcases hm.lt_or_eq with h | h
  · have h1 : (m : ℝ) * 2 ^ e < ((2 : ℕ) : ℝ) ^ (p + 1 + e : ℤ) := by
      push_cast
      rw [zpow_add₀ two_ne_zero]
      have : (m : ℝ) < 2 ^ (p + 1) := by exact_mod_cast h
      have e2 : (2 : ℝ) ^ ((p : ℤ) + 1) = 2 ^ (p + 1) := by exact_mod_cast zpow_natCast (2 : ℝ) (p + 1)
      rw [e2]
      gcongr
    have h2 := (Int.lt_zpow_iff_log_lt one_lt_two hy).1 h1
    obtain ⟨n, hn⟩ := Int.eq_ofNat_of_zero_le (show 0 ≤ e - (Int.log 2 ((m : ℝ) * 2 ^ e) - p) by omega)
    refine ⟨m * 2 ^ n, ?_⟩
    rw [mul_div_assoc, ← zpow_sub₀ two_ne_zero, hn]
    push_cast
    rw [zpow_natCast]
  · refine ⟨2 ^ p, ?_⟩
    have e1 : (m : ℝ) * 2 ^ e = ((2 : ℕ) : ℝ) ^ (p + 1 + e : ℤ) := by
      push_cast
      rw [zpow_add₀ two_ne_zero, h]
      have e2 : (2 : ℝ) ^ ((p : ℤ) + 1) = 2 ^ (p + 1) := by exact_mod_cast zpow_natCast (2 : ℝ) (p + 1)
      rw [e2]
      push_cast
      rfl
    rw [e1, Int.log_zpow one_lt_two]
    push_cast
    rw [← zpow_sub₀ two_ne_zero, ← zpow_natCast]
    congr 1
    ring

/-- Binary floating point numbers with `p + 1` significant bits, rounded to nearest (`p = 52`: IEEE double precision with an
unlimited exponent). -/
noncomputable def sys : FloatSys where
  F := F p
  rd := rd p
  u := 1 / 2 ^ (p + 1)
  u_nonneg := by positivity
  mem x := by
    unfold rd
    split_ifs with h1 h2
    · exact rdPos_mem p h1
    · exact neg_mem p (rdPos_mem p (neg_pos.2 h2))
    · exact ⟨0, 0, by simp, by simp⟩
  fix x hx := by
    unfold rd
    split_ifs with h1 h2
    · exact rdPos_fix p hx h1
    · rw [rdPos_fix p (neg_mem p hx) (neg_pos.2 h2), neg_neg]
    · exact le_antisymm (not_lt.1 h2) (not_lt.1 h1)
  mono x y hxy := by
    unfold rd
    split_ifs with h1 h2 h3 h4 h5 h6 <;> try linarith
    · exact rdPos_mono p h1 hxy
    · have := rdPos_pos p (neg_pos.2 h4); have := rdPos_pos p h5; linarith
    · exact neg_le_neg (rdPos_mono p (neg_pos.2 h6) (neg_le_neg hxy))
    · have := rdPos_pos p (neg_pos.2 h4); linarith
    · rename_i h; exact (rdPos_pos p h).le
  rel x := by
    unfold rd
    split_ifs with h1 h2
    · rw [abs_of_pos h1]; exact rdPos_err p h1
    · rw [abs_of_neg h2]
      have := rdPos_err p (neg_pos.2 h2)
      rwa [show -rdPos p (-x) - x = -(rdPos p (-x) - -x) by ring, abs_neg]
    · have : x = 0 := le_antisymm (not_lt.1 h1) (not_lt.1 h2)
      simp [this]
  zero_mem := ⟨0, 0, by simp, by simp⟩
  int_mem n hn := by
    refine ⟨n, 0, ?_, by simp⟩
    rw [mul_one_div, div_le_one (by positivity)] at hn
    exact_mod_cast hn
  two_mul x hx := by
    obtain ⟨m, e, h, rfl⟩ := hx
    exact ⟨m, e + 1, h, by rw [zpow_add_one₀ two_ne_zero]; ring⟩
  half x hx := by
    obtain ⟨m, e, h, rfl⟩ := hx
    exact ⟨m, e - 1, h, by rw [zpow_sub_one₀ two_ne_zero]; ring⟩

end Binary
end Npplus.Spec
