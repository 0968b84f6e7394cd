import Mathlib.Data.Sign.Basic
import Mathlib.Algebra.Order.Field.Basic
import Mathlib.Tactic.Linarith
import Mathlib.Tactic.Ring

/-!
# Sign variations of a list and of its Taylor shift

For Taylor coefficients `c` at a point, `vm c` is the number of sign changes just after the point (zeros dropped) and `vp c` the number of sign changes
just before it (a zero counts as opposite to what follows it); zeros at the end of the list are ignored in both.
The lemma of Budan and Fourier: `vp (shift c) ≤ vm c`.
-/

set_option linter.unusedSectionVars false

namespace Npplus.SignVar

variable {K : Type} [Field K] [LinearOrder K] [IsStrictOrderedRing K]

open SignType

/-- sign just after the point -/
def fm : List K → SignType
  | [] => 0
  | a :: l => if a = 0 then fm l else sign a

/-- sign just before the point -/
def fp : List K → SignType
  | [] => 0
  | a :: l => if a = 0 then -fp l else sign a

/-- sign of the last nonzero element -/
def ld : List K → SignType
  | [] => 0
  | a :: l => if ld l = 0 then sign a else ld l

/-- 1 if the signs are opposite -/
def chg (s t : SignType) : ℕ := if s = -t ∧ t ≠ 0 then 1 else 0

def vm : List K → ℕ
  | [] => 0
  | a :: l => vm l + chg (fm (a :: l)) (fm l)

def vp : List K → ℕ
  | [] => 0
  | a :: l => vp l + chg (fp (a :: l)) (fp l)

theorem fm_z (l : List K) : fm (0 :: l) = fm l := if_pos rfl
theorem fm_nz {a : K} (h : a ≠ 0) (l : List K) : fm (a :: l) = sign a := if_neg h
theorem fp_z (l : List K) : fp (0 :: l) = -fp l := if_pos rfl
theorem fp_nz {a : K} (h : a ≠ 0) (l : List K) : fp (a :: l) = sign a := if_neg h
theorem vm_cons (a : K) (l : List K) : vm (a :: l) = vm l + chg (fm (a :: l)) (fm l) := rfl
theorem vp_cons (a : K) (l : List K) : vp (a :: l) = vp l + chg (fp (a :: l)) (fp l) := rfl
theorem chg_self : ∀ s : SignType, chg s s = 0 := by decide

/-- `(-1)^k s` -/
def par : ℕ → SignType → SignType
  | 0, s => s
  | k + 1, s => -par k s

theorem par_neg (k : ℕ) (s : SignType) : par k (-s) = -par k s := by
  induction k with
  | zero => rfl
  | succ k ih => simp [par, ih]

theorem par_zero (k : ℕ) : par k 0 = 0 := by
  induction k with
  | zero => rfl
  | succ k ih => simp [par, ih]

theorem par_eq_zero {k : ℕ} {s : SignType} : par k s = 0 ↔ s = 0 := by
  induction k with
  | zero => rfl
  | succ k ih => simp [par, ih]

theorem par_inj {k : ℕ} {s t : SignType} (h : par k s = par k t) : s = t := by
  induction k with
  | zero => exact h
  | succ k ih => exact ih (by simpa [par] using h)

theorem par_par (j k : ℕ) (s : SignType) : par j (par k s) = par (j + k) s := by
  induction j with
  | zero => simp [par]
  | succ j ih => rw [Nat.succ_add]; simp [par, ih]

theorem chg_le (s t : SignType) : chg s t ≤ 1 := by unfold chg; split <;> omega

theorem chg_par : ∀ s t : SignType, s ≠ 0 → t ≠ 0 → s = par (chg s t) t := by decide

theorem chg_zero (s : SignType) : chg s 0 = 0 := by simp [chg]

/-! ### all zero -/

theorem ld_eq_zero : ∀ {l : List K}, ld l = 0 ↔ ∀ a ∈ l, a = 0
  | [] => by simp [ld]
  | a :: l => by
    have ih := ld_eq_zero (l := l)
    unfold ld
    split
    · rename_i h
      simp only [sign_eq_zero_iff, List.mem_cons, forall_eq_or_imp]
      exact ⟨fun ha => ⟨ha, ih.1 h⟩, fun ha => ha.1⟩
    · rename_i h
      simp only [List.mem_cons, forall_eq_or_imp]
      exact ⟨fun h' => absurd h' h, fun h' => absurd (ih.2 h'.2) h⟩

theorem zeros_spec : ∀ {l : List K}, (∀ a ∈ l, a = 0) → fm l = 0 ∧ fp l = 0 ∧ vm l = 0 ∧ vp l = 0
  | [], _ => by simp [fm, fp, vm, vp]
  | a :: l, h => by
    obtain ⟨h1, h2, h3, h4⟩ := zeros_spec (l := l) fun b hb => h b (by simp [hb])
    have ha : a = 0 := h a (by simp)
    simp [fm, fp, vm, vp, h1, h2, h3, h4, ha, chg]

theorem ld_zero_spec {l : List K} (h : ld l = 0) : fm l = 0 ∧ fp l = 0 ∧ vm l = 0 ∧ vp l = 0 := zeros_spec (ld_eq_zero.1 h)

/-! ### parity -/

theorem fm_eq : ∀ l : List K, fm l = par (vm l) (ld l)
  | [] => rfl
  | a :: l => by
    have ih := fm_eq l
    by_cases hl : ld l = 0
    · obtain ⟨h1, h2, h3, h4⟩ := ld_zero_spec hl
      unfold vm
      rw [h3, h1, chg_zero]
      unfold fm ld
      rw [if_pos hl, h1]
      split
      · rename_i ha; simp [par, ha]
      · rfl
    · have h0 : fm l ≠ 0 := by rw [ih, Ne, par_eq_zero]; exact hl
      have e : ld (a :: l) = ld l := by conv_lhs => unfold ld; rw [if_neg hl]
      rw [e]
      conv_rhs => unfold vm
      have ha : fm (a :: l) ≠ 0 := by
        unfold fm; split
        · exact h0
        · rename_i ha; simpa using ha
      rw [Nat.add_comm, ← par_par, ← ih]
      exact chg_par _ _ ha h0

theorem fp_eq : ∀ l : List K, fp l = par (vp l) (ld l)
  | [] => rfl
  | a :: l => by
    have ih := fp_eq l
    by_cases hl : ld l = 0
    · obtain ⟨h1, h2, h3, h4⟩ := ld_zero_spec hl
      unfold vp
      rw [h4, h2, chg_zero]
      unfold fp ld
      rw [if_pos hl, h2]
      split
      · rename_i ha; simp [par, ha]
      · rfl
    · have h0 : fp l ≠ 0 := by rw [ih, Ne, par_eq_zero]; exact hl
      have e : ld (a :: l) = ld l := by conv_lhs => unfold ld; rw [if_neg hl]
      rw [e]
      conv_rhs => unfold vp
      have ha : fp (a :: l) ≠ 0 := by
        unfold fp; split
        · simpa using h0
        · rename_i ha; simpa using ha
      rw [Nat.add_comm, ← par_par, ← ih]
      exact chg_par _ _ ha h0

theorem fm_ne {l : List K} (h : ld l ≠ 0) : fm l ≠ 0 := by rw [fm_eq, Ne, par_eq_zero]; exact h
theorem fp_ne {l : List K} (h : ld l ≠ 0) : fp l ≠ 0 := by rw [fp_eq, Ne, par_eq_zero]; exact h

/-! ### shift -/

/-- `[l[i] + l[i+1]]` -/
def bid : List K → List K
  | [] => []
  | [a] => [a]
  | a :: b :: l => (a + b) :: bid (b :: l)

/-- Taylor coefficients at 1 from those at 0 -/
def shift : List K → List K
  | [] => []
  | a :: l => bid (a :: shift l)

theorem bid_zeros : ∀ {l : List K}, (∀ a ∈ l, a = 0) → ∀ a ∈ bid l, a = 0
  | [], _ => by simp [bid]
  | [a], h => by simpa [bid] using h
  | a :: b :: l, h => by
    have := bid_zeros (l := b :: l) fun c hc => h c (by simp at hc ⊢; tauto)
    simp only [bid, List.mem_cons, forall_eq_or_imp]
    exact ⟨by rw [h a (by simp), h b (by simp), add_zero], this⟩

theorem ld_bid : ∀ l : List K, ld (bid l) = ld l
  | [] => rfl
  | [a] => rfl
  | a :: b :: l => by
    have ih := ld_bid (b :: l)
    rw [bid]
    conv_lhs => unfold ld
    conv_rhs => unfold ld
    rw [ih]
    split
    · rename_i h
      rw [ld_eq_zero.1 h b (by simp), add_zero]
    · rfl

theorem ld_shift : ∀ l : List K, ld (shift l) = ld l
  | [] => rfl
  | a :: l => by
    rw [shift, ld_bid]
    unfold ld
    rw [ld_shift l]

/-- 1 if `a` is nonzero and opposite to `t` -/
def opp (a : K) (t : SignType) : ℕ := chg (sign a) t

theorem opp_zero (t : SignType) : opp (0 : K) t = 0 := by
  unfold opp chg; rw [sign_zero, if_neg]; rintro ⟨h1, h2⟩; revert h1 h2; revert t; decide

theorem sign_add_cases {a b : K} (hb : b ≠ 0) (h : a + b = 0 ∨ sign (a + b) = -sign b) : sign a = -sign b := by
  rcases lt_or_gt_of_ne hb with h1 | h1
  · have e : sign b = -1 := sign_neg h1
    rw [e] at h ⊢
    have : 0 < a := by
      rcases h with h | h
      · linarith
      · have : 0 < a + b := by rw [← sign_eq_one_iff, h]; rfl
        linarith
    rw [sign_pos this]; rfl
  · have e : sign b = 1 := sign_pos h1
    rw [e] at h ⊢
    have : a < 0 := by
      rcases h with h | h
      · linarith
      · have : a + b < 0 := by rw [← sign_eq_neg_one_iff, h]
        linarith
    rw [sign_neg this]

theorem vp_bid : ∀ (r : List K) (a : K), vp (bid (a :: r)) ≤ vp r + opp a (fp r)
  | [], a => by simp [bid, vp, fp, chg]
  | b :: l, a => by
    have ih := vp_bid l b
    rw [bid]
    by_cases hl : ∀ c ∈ b :: l, c = 0
    · have hz := bid_zeros hl
      obtain ⟨-, h2, -, h4⟩ := zeros_spec hz
      unfold vp
      rw [h4, h2, chg_zero]; omega
    set w := bid (b :: l) with hw
    have hld : ld w = ld (b :: l) := ld_bid _
    have hld0 : ld (b :: l) ≠ 0 := fun h => hl (ld_eq_zero.1 h)
    have e : vp ((a + b) :: w) = vp w + chg (fp ((a + b) :: w)) (fp w) := rfl
    rw [e]
    by_cases hb : b = 0
    · subst hb
      have hl0 : ld l ≠ 0 := by
        intro h
        apply hld0
        unfold ld; rw [if_pos h, sign_zero]
      have e2 : vp ((0 : K) :: l) = vp l + 1 := by
        rw [vp_cons, fp_z]
        unfold chg
        rw [if_pos ⟨rfl, fp_ne hl0⟩]
      rw [opp_zero] at ih
      have := chg_le (fp ((a + 0) :: w)) (fp w)
      omega
    · have e1 : fp (b :: l) = sign b := fp_nz hb l
      have e2 : vp (b :: l) = vp l + opp b (fp l) := by rw [vp_cons, e1]; rfl
      rcases Nat.lt_or_ge (vp w) (vp (b :: l)) with hlt | hge
      · have := chg_le (fp ((a + b) :: w)) (fp w)
        omega
      · have heq : vp w = vp (b :: l) := by omega
        have hfw : fp w = sign b := by rw [← e1, fp_eq w, fp_eq (b :: l), heq, hld]
        rw [heq, hfw, e1]
        have : chg (fp ((a + b) :: w)) (sign b) ≤ opp a (sign b) := by
          unfold opp chg
          have hsb : sign b ≠ 0 := by simpa using hb
          by_cases hc : fp ((a + b) :: w) = -sign b
          · have h2 : sign a = -sign b := by
              apply sign_add_cases hb
              unfold fp at hc
              by_cases h0 : a + b = 0
              · exact Or.inl h0
              · rw [if_neg h0] at hc; exact Or.inr hc
            rw [if_pos ⟨hc, hsb⟩, if_pos ⟨h2, hsb⟩]
          · rw [if_neg (fun h => hc h.1)]; omega
        omega

/-- The lemma of Budan and Fourier. -/
theorem vp_shift : ∀ l : List K, vp (shift l) ≤ vm l
  | [] => le_rfl
  | a :: q => by
    have ih := vp_shift q
    have h := vp_bid (shift q) a
    rw [shift]
    have hm : vm (a :: q) = vm q + opp a (fm q) := by
      rw [vm_cons]
      by_cases ha : a = 0
      · subst ha
        rw [fm_z, chg_self, opp_zero]
      · rw [fm_nz ha]; rfl
    rcases Nat.lt_or_ge (vp (shift q)) (vm q) with hlt | hge
    · have : opp a (fp (shift q)) ≤ 1 := chg_le _ _
      omega
    · have heq : vp (shift q) = vm q := by omega
      have : fp (shift q) = fm q := by rw [fp_eq, fm_eq, heq, ld_shift]
      rw [this] at h
      omega

/-! ### more about variations -/

theorem chg_comm' : ∀ s t : SignType, s ≠ 0 → t ≠ 0 → par (chg s t) s = t := by decide

theorem chg_eq_zero : ∀ s t : SignType, s ≠ 0 → t ≠ 0 → chg s t = 0 → s = t := by decide

theorem chg_eq_one : ∀ s t : SignType, chg s t = 1 → s = -t ∧ t ≠ 0 := by decide

theorem vm_le_vp : ∀ l : List K, vm l ≤ vp l
  | [] => le_rfl
  | a :: l => by
    have ih := vm_le_vp l
    rw [vm_cons, vp_cons]
    have := chg_le (fm (a :: l)) (fm l)
    rcases Nat.lt_or_ge (vm l) (vp l) with h | h
    · omega
    · have he : vm l = vp l := by omega
      have hf : fm l = fp l := by rw [fm_eq, fp_eq, he]
      by_cases ha : a = 0
      · subst ha
        rw [fm_z, chg_self]; omega
      · rw [fm_nz ha, fp_nz ha, hf]; omega

theorem ld_append (l m : List K) : ld (l ++ m) = if ld m = 0 then ld l else ld m := by
  induction l with
  | nil => simp only [List.nil_append]; split <;> simp_all [ld]
  | cons a l ih =>
    rw [List.cons_append]
    have e : ∀ q : List K, ld (a :: q) = if ld q = 0 then sign a else ld q := fun _ => rfl
    rw [e, e, ih]
    by_cases h : ld m = 0
    · rw [if_pos h, if_pos h]
    · rw [if_neg h, if_neg h, if_neg h]

theorem fm_append {l : List K} (h : ld l ≠ 0) (m : List K) : fm (l ++ m) = fm l := by
  induction l with
  | nil => exact absurd rfl h
  | cons a l ih =>
    rw [List.cons_append]
    by_cases ha : a = 0
    · subst ha
      rw [fm_z, fm_z]
      apply ih
      intro h0; apply h
      have e : ld ((0 : K) :: l) = if ld l = 0 then sign (0 : K) else ld l := rfl
      rw [e, if_pos h0, sign_zero]
    · rw [fm_nz ha, fm_nz ha]

theorem fm_zeros {l : List K} (h : ld l = 0) (m : List K) : fm (l ++ m) = fm m ∧ vm (l ++ m) = vm m := by
  have h := ld_eq_zero.1 h
  induction l with
  | nil => exact ⟨rfl, rfl⟩
  | cons a l ih =>
    obtain ⟨h1, h2⟩ := ih (ld_eq_zero.2 fun b hb => h b (by simp [hb])) fun b hb => h b (by simp [hb])
    obtain rfl : a = 0 := h a (by simp)
    rw [List.cons_append, vm_cons, fm_z, chg_self]
    exact ⟨h1, h2⟩

theorem vm_append_one {l : List K} (h : ld l ≠ 0) (d : K) : vm (l ++ [d]) = vm l + chg (sign d) (ld l) := by
  have hd : vm [d] = 0 := by simp [vm, fm, chg]
  have hfd : fm [d] = sign d := by
    by_cases h0 : d = 0
    · subst h0; simp [fm]
    · exact fm_nz h0 _
  induction l with
  | nil => exact absurd rfl h
  | cons a l ih =>
    rw [List.cons_append, vm_cons, vm_cons]
    have e : ld (a :: l) = if ld l = 0 then sign a else ld l := rfl
    by_cases hl : ld l = 0
    · rw [e, if_pos hl] at h ⊢
      have ha : a ≠ 0 := by simpa using h
      obtain ⟨h1, h2, h3, h4⟩ := ld_zero_spec hl
      obtain ⟨g1, g2⟩ := fm_zeros hl [d]
      rw [g1, g2, h1, h3, fm_nz ha, fm_nz ha, hd, hfd, chg_zero, Nat.zero_add, Nat.zero_add]
      generalize sign a = s at h ⊢
      generalize sign d = t
      revert s t
      decide
    · rw [e, if_neg hl, ih hl, fm_append hl, ← List.cons_append, fm_append (by rw [e, if_neg hl]; exact hl)]
      omega

theorem vp_suffix (l m : List K) : vp m ≤ vp (l ++ m) := by
  induction l with
  | nil => exact le_rfl
  | cons a l ih => rw [List.cons_append, vp_cons]; omega

theorem vp_append_zeros (l : List K) {m : List K} (hm : ld m = 0) : vp (l ++ m) = vp l ∧ fp (l ++ m) = fp l := by
  induction l with
  | nil =>
    obtain ⟨h1, h2, h3, h4⟩ := ld_zero_spec hm
    exact ⟨h4, h2⟩
  | cons a l ih =>
    have h2 : fp (a :: (l ++ m)) = fp (a :: l) := by
      by_cases ha : a = 0
      · subst ha; rw [fp_z, fp_z, ih.2]
      · rw [fp_nz ha, fp_nz ha]
    exact ⟨by rw [List.cons_append, vp_cons, vp_cons, ih.1, ih.2, h2], h2⟩

theorem vp_append {l m : List K} (hl : ld l ≠ 0) (hm : ld m ≠ 0) : vp l + vp m + chg (fp m) (ld l) ≤ vp (l ++ m) := by
  induction l with
  | nil => exact absurd rfl hl
  | cons a l ih =>
    have e : ld (a :: l) = if ld l = 0 then sign a else ld l := rfl
    have hlm : ∀ q : List K, ld (q ++ m) = ld m := fun q => by rw [ld_append, if_neg hm]
    by_cases h0 : ld l = 0
    · rw [e, if_pos h0] at hl ⊢
      have ha : a ≠ 0 := by simpa using hl
      obtain ⟨h1, h2, h3, h4⟩ := ld_zero_spec h0
      have hv : vp (a :: l) = 0 := by rw [vp_cons, h4, h2, chg_zero]
      rw [hv, Nat.zero_add]
      have hs := vp_suffix (a :: l) m
      have hc := chg_le (fp m) (sign a)
      rcases Nat.eq_or_lt_of_le hs with hs | hs
      · have : sign a = fp m := by
          rw [← fp_nz ha (l ++ m), ← List.cons_append, fp_eq, fp_eq, ← hs, hlm]
        rw [this, chg_self, ← hs]; omega
      · omega
    · rw [e, if_neg h0]
      have ih := ih h0
      rw [List.cons_append, vp_cons, vp_cons]
      have hc := chg_le (fp (a :: l)) (fp l)
      rcases Nat.eq_or_lt_of_le ih with hs | hs
      · have hf : fp (l ++ m) = fp l := by
          rw [fp_eq (l ++ m), ← hs, hlm, fp_eq l, show vp l + vp m + chg (fp m) (ld l) = vp l + (chg (fp m) (ld l) + vp m) by omega,
            ← par_par, ← par_par, ← fp_eq m, chg_comm' _ _ (fp_ne hm) h0]
        have hf2 : fp (a :: (l ++ m)) = fp (a :: l) := by
          by_cases ha : a = 0
          · subst ha; rw [fp_z, fp_z, hf]
          · rw [fp_nz ha, fp_nz ha]
        rw [hf, hf2]; omega
      · omega

theorem vp_zeros (k : ℕ) {w : K} (hw : w ≠ 0) : vp (List.replicate k 0 ++ [w]) = k := by
  induction k with
  | zero => simp [vp, fp, chg]
  | succ k ih =>
    rw [List.replicate_succ, List.cons_append, vp_cons, ih, fp_z]
    unfold chg
    rw [if_pos ⟨rfl, fp_ne (by rw [ld_append, if_neg] <;> simp [ld, hw])⟩]

/-- Number of nonzero elements. -/
def nnz (l : List K) : ℕ := l.countP (· ≠ 0)

theorem nnz_cons (a : K) (l : List K) : nnz (a :: l) = nnz l + if a = 0 then 0 else 1 := by
  unfold nnz
  rw [List.countP_cons]
  by_cases h : a = 0 <;> simp [h]

theorem vm_lt_nnz : ∀ {l : List K}, ld l ≠ 0 → vm l + 1 ≤ nnz l
  | [], h => absurd rfl h
  | a :: l, h => by
    have e : ld (a :: l) = if ld l = 0 then sign a else ld l := rfl
    rw [vm_cons, nnz_cons]
    by_cases h0 : ld l = 0
    · rw [e, if_pos h0] at h
      have ha : a ≠ 0 := by simpa using h
      obtain ⟨h1, h2, h3, h4⟩ := ld_zero_spec h0
      rw [h1, h3, chg_zero, if_neg ha]; omega
    · have ih := vm_lt_nnz h0
      by_cases ha : a = 0
      · subst ha; rw [fm_z, chg_self, if_pos rfl]; omega
      · rw [if_neg ha]
        have := chg_le (fm (a :: l)) (fm l)
        omega

theorem zeros_le_vp {w : K} (hw : w ≠ 0) : ∀ m : List K, m.countP (· = 0) ≤ vp (m ++ [w])
  | [] => by simp
  | a :: m => by
    have ih := zeros_le_vp hw m
    rw [List.cons_append, vp_cons, List.countP_cons]
    have hm : ld (m ++ [w]) ≠ 0 := by rw [ld_append, if_neg] <;> simp [ld, hw]
    by_cases ha : a = 0
    · subst ha
      have h1 : chg (fp (0 :: (m ++ [w]))) (fp (m ++ [w])) = 1 := by
        rw [fp_z]; unfold chg; exact if_pos ⟨rfl, fp_ne hm⟩
      rw [h1]; simpa using ih
    · simp only [decide_eq_true_eq, if_neg ha]; omega

/-! ### only signs matter -/

theorem signs_congr : ∀ {l l' : List K}, l.map sign = l'.map sign → fm l = fm l' ∧ fp l = fp l' ∧ ld l = ld l' ∧ vm l = vm l' ∧ vp l = vp l'
  | [], [], _ => by simp
  | [], _ :: _, h => by simp at h
  | _ :: _, [], h => by simp at h
  | a :: l, b :: l', h => by
    simp only [List.map_cons, List.cons.injEq] at h
    obtain ⟨h1, h2, h3, h4, h5⟩ := signs_congr h.2
    have hz : a = 0 ↔ b = 0 := by rw [← sign_eq_zero_iff (a := a), h.1, sign_eq_zero_iff]
    have e1 : fm (a :: l) = fm (b :: l') := by
      by_cases ha : a = 0
      · rw [ha, hz.1 ha, fm_z, fm_z, h1]
      · rw [fm_nz ha, fm_nz (fun hb => ha (hz.2 hb)), h.1]
    have e2 : fp (a :: l) = fp (b :: l') := by
      by_cases ha : a = 0
      · rw [ha, hz.1 ha, fp_z, fp_z, h2]
      · rw [fp_nz ha, fp_nz (fun hb => ha (hz.2 hb)), h.1]
    have e3 : ld (a :: l) = ld (b :: l') := by
      unfold ld; rw [h3, h.1]
    exact ⟨e1, e2, e3, by rw [vm_cons, vm_cons, h4, e1, h1], by rw [vp_cons, vp_cons, h5, e2, h2]⟩

/-- At a knot where the function vanishes and only the highest derivative jumps. -/
theorem knot {v v' : List K} {d d' : K} (hv : v.map sign = v'.map sign) (hB : ld ((0 : K) :: (v ++ [d])) ≠ 0) :
    vm ((0 : K) :: (v' ++ [d'])) ≤ vp ((0 : K) :: (v ++ [d])) ∧
      (vm ((0 : K) :: (v' ++ [d'])) = vp ((0 : K) :: (v ++ [d])) → ld ((0 : K) :: (v' ++ [d'])) = -ld ((0 : K) :: (v ++ [d]))) := by
  obtain ⟨h1, h2, h3, h4, h5⟩ := signs_congr hv
  have e : ∀ l : List K, ld ((0 : K) :: l) = ld l := fun l => by
    have : ld ((0 : K) :: l) = if ld l = 0 then sign (0 : K) else ld l := rfl
    rw [this]; split
    · rename_i h; rw [h, sign_zero]
    · rfl
  rw [e] at hB
  have hvp : vp ((0 : K) :: (v ++ [d])) = vp (v ++ [d]) + 1 := by
    rw [vp_cons, fp_z]; unfold chg; rw [if_pos ⟨rfl, fp_ne hB⟩]
  rw [vm_cons, fm_z, chg_self, hvp, e, e, Nat.add_zero]
  have hld1 : ∀ d : K, ld [d] = sign d := fun d => rfl
  by_cases h0 : ld v = 0
  · have h0' : ld v' = 0 := by rw [← h3]; exact h0
    rw [(fm_zeros h0' [d']).2]
    have : vm [d'] = 0 := by simp [vm, fm, chg]
    rw [this]
    exact ⟨by omega, fun h => by omega⟩
  · have h0' : ld v' ≠ 0 := by rw [← h3]; exact h0
    rw [vm_append_one h0', ← h3, ← h4]
    have a1 := vm_le_vp v
    have a2 : vp v ≤ vp (v ++ [d]) ∧ (vp v = vp (v ++ [d]) → ld (v ++ [d]) = ld v) := by
      by_cases hd : d = 0
      · subst hd
        rw [(vp_append_zeros v (m := [0]) (by simp [ld])).1]
        exact ⟨le_rfl, fun _ => by rw [ld_append, if_pos (by simp [ld])]⟩
      · have hd' : ld [d] ≠ 0 := by simpa [ld] using hd
        have h := vp_append h0 hd'
        have hf : fp [d] = sign d := fp_nz hd _
        have hv1 : vp [d] = 0 := by simp [vp, fp, chg]
        rw [hf, hv1] at h
        refine ⟨by omega, fun h' => ?_⟩
        rw [ld_append, if_neg hd', hld1]
        exact chg_eq_zero _ _ (by simpa using hd) h0 (by omega)
    have a3 := chg_le (sign d') (ld v)
    refine ⟨by omega, fun h => ?_⟩
    have a4 : chg (sign d') (ld v) = 1 := by omega
    obtain ⟨b1, b2⟩ := chg_eq_one _ _ a4
    rw [a2.2 (by omega), ld_append, hld1, if_neg, b1]
    rw [b1]; simpa using b2

/-- At a knot where the function vanishes and nothing jumps. -/
theorem knot_smooth {v v' : List K} (hv : v.map sign = v'.map sign) (hB : ld v ≠ 0) : vm ((0 : K) :: v') + 1 ≤ vp ((0 : K) :: v) := by
  obtain ⟨h1, h2, h3, h4, h5⟩ := signs_congr hv
  rw [vm_cons, fm_z, chg_self, vp_cons, fp_z]
  unfold chg
  rw [if_pos ⟨rfl, fp_ne hB⟩, ← h4]
  have := vm_le_vp v
  omega

end Npplus.SignVar
