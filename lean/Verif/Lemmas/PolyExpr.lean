import Verif.Lemmas.FermiInv
import Verif.Lemmas.PosNat

/-!
# Polynomial expressions evaluated with integer arithmetic

The kernel multiplies integers far faster than rationals; an expression is computed over one common denominator.
-/

set_option linter.unusedSectionVars false
namespace Npplus
namespace Cheb

/-- polynomial expressions -/
inductive PE
  | lit (c : List ℚ)
  | add (a b : PE)
  | mul (a b : PE)
  | smul (q : ℚ) (a : PE)
  | pow (a : PE) (n : ℕ)
  | sub (A B : PE) (c : List ℚ)
  | xmul (a : PE)

/-- the rational polynomial -/
def PE.toQ : PE → List ℚ
  | .lit c => c
  | .add a b => addQ a.toQ b.toQ
  | .mul a b => mulQ a.toQ b.toQ
  | .smul q a => a.toQ.map (q * ·)
  | .pow a n => FdInv.powQ a.toQ n
  | .sub A B c => (subst A.toQ B.toQ c).1
  | .xmul a => 0 :: a.toQ

/-- product -/
def mulZ' : List ℤ → List ℤ → List ℤ
  | [], _ => []
  | x :: a, b => addZ (b.map (x * ·)) (0 :: mulZ' a b)

theorem evZ_mul' (b : List ℤ) (u : ℝ) : ∀ a : List ℤ, evZ (mulZ' a b) u = evZ a u * evZ b u
  | [] => by simp [mulZ', evZ]
  | x :: a => by
    rw [mulZ', evZ_add, evZ_smul, evZ, evZ_mul' b u a, evZ]
    push_cast; ring

def powZ (a : List ℤ) : ℕ → List ℤ
  | 0 => [1]
  | k + 1 => mulZ' (powZ a k) a

theorem evZ_pow (a : List ℤ) (u : ℝ) : ∀ k : ℕ, evZ (powZ a k) u = evZ a u ^ k
  | 0 => by simp [powZ, evZ]
  | k + 1 => by rw [powZ, evZ_mul', evZ_pow a u k, pow_succ]

/-- common denominator -/
def denQ : List ℚ → ℕ
  | [] => 1
  | q :: c => Nat.lcm q.den (denQ c)

theorem denQ_pos : ∀ c : List ℚ, 0 < denQ c
  | [] => one_pos
  | q :: c => Nat.lcm_pos q.den_pos (denQ_pos c)

/-- numerators over `D` -/
def numQ (D : ℕ) (c : List ℚ) : List ℤ := c.map fun q => q.num * ((D / q.den : ℕ) : ℤ)

theorem evZ_numQ {D : ℕ} (u : ℝ) : ∀ {c : List ℚ}, (∀ q ∈ c, q.den ∣ D) → evZ (numQ D c) u = D * evQ c u
  | [], _ => by simp [numQ, evZ, evQ]
  | q :: c, h => by
    have ih := evZ_numQ u (fun r hr => h r (List.mem_cons_of_mem _ hr))
    obtain ⟨k, hk⟩ := h q (List.mem_cons_self ..)
    have hd : (q.den : ℝ) ≠ 0 := by exact_mod_cast q.den_ne_zero
    have e : (q : ℝ) = q.num / q.den := by exact_mod_cast (Rat.num_div_den q).symm
    have : ((D / q.den : ℕ) : ℝ) = k := by rw [hk, Nat.mul_div_cancel_left _ q.den_pos]
    simp only [numQ, List.map_cons, evZ, evQ] at ih ⊢
    rw [ih, Int.cast_mul, Int.cast_natCast, this, e, hk]
    push_cast
    field_simp

theorem denQ_dvd : ∀ {c : List ℚ}, ∀ q ∈ c, q.den ∣ denQ c
  | r :: c, q, hq => by
    rw [denQ]
    rcases List.mem_cons.1 hq with rfl | hq
    · exact Nat.dvd_lcm_left ..
    · exact (denQ_dvd q hq).trans (Nat.dvd_lcm_right ..)

/-- integer coefficients over a denominator -/
structure PZ where
  z : List ℤ
  d : ℕ

def PZ.add (a b : PZ) : PZ := ⟨addZ (a.z.map ((b.d : ℤ) * ·)) (b.z.map ((a.d : ℤ) * ·)), a.d * b.d⟩
def PZ.mul (a b : PZ) : PZ := ⟨mulZ' a.z b.z, a.d * b.d⟩
def PZ.smul (q : ℚ) (a : PZ) : PZ := ⟨a.z.map (q.num * ·), q.den * a.d⟩
def PZ.pow (a : PZ) (n : ℕ) : PZ := ⟨powZ a.z n, a.d ^ n⟩
def PZ.lit (c : List ℚ) : PZ := ⟨numQ (denQ c) c, denQ c⟩

/-- `Σ c_i A^i B^(n-i)` and `B^len`, all integers -/
def substZ (A B : List ℤ) : List ℤ → List ℤ × List ℤ
  | [] => ([], [1])
  | c :: L =>
    let s := substZ A B L
    (addZ (s.2.map (c * ·)) (mulZ' A s.1), mulZ' B s.2)

/-- `p` represents `c` -/
def PZ.Rep (p : PZ) (c : List ℚ) : Prop := 0 < p.d ∧ ∀ u : ℝ, evZ p.z u = p.d * evQ c u

theorem PZ.rep_lit (c : List ℚ) : (PZ.lit c).Rep c := ⟨denQ_pos c, fun u => evZ_numQ u denQ_dvd⟩

theorem PZ.Rep.add {p r : PZ} {a b : List ℚ} (h : p.Rep a) (k : r.Rep b) : (p.add r).Rep (addQ a b) :=
  ⟨Nat.mul_pos h.1 k.1, fun u => by
    simp only [PZ.add, evZ_add, evZ_smul, evQ_add, h.2, k.2]; push_cast; ring⟩

theorem PZ.Rep.mul {p r : PZ} {a b : List ℚ} (h : p.Rep a) (k : r.Rep b) : (p.mul r).Rep (mulQ a b) :=
  ⟨Nat.mul_pos h.1 k.1, fun u => by
    simp only [PZ.mul, evZ_mul', evQ_mul, h.2, k.2]; push_cast; ring⟩

theorem PZ.Rep.smul {p : PZ} {a : List ℚ} (h : p.Rep a) (q : ℚ) : (p.smul q).Rep (a.map (q * ·)) :=
  ⟨Nat.mul_pos q.den_pos h.1, fun u => by
    have hd : (q.den : ℝ) ≠ 0 := by exact_mod_cast q.den_ne_zero
    have e : (q : ℝ) = q.num / q.den := by exact_mod_cast (Rat.num_div_den q).symm
    simp only [PZ.smul, evZ_smul, evQ_smul, h.2]; rw [e]; push_cast; field_simp⟩

theorem PZ.Rep.pow {p : PZ} {a : List ℚ} (h : p.Rep a) (n : ℕ) : (p.pow n).Rep (FdInv.powQ a n) :=
  ⟨Nat.pow_pos h.1, fun u => by
    simp only [PZ.pow, evZ_pow, FdInv.evQ_pow, h.2, mul_pow]; push_cast; ring⟩

theorem PZ.Rep.xmul {p : PZ} {a : List ℚ} (h : p.Rep a) : (PZ.mk (0 :: p.z) p.d).Rep (0 :: a) :=
  ⟨h.1, fun u => by simp only [evZ, evQ, h.2]; push_cast; ring⟩

/-- substitution -/
def PZ.sub (A B : PZ) (c : List ℚ) : PZ :=
  let s := substZ (A.z.map ((B.d : ℤ) * ·)) (B.z.map ((A.d : ℤ) * ·)) (numQ (denQ c) c)
  ⟨s.1, denQ c * (A.d * B.d) ^ (c.length - 1)⟩

theorem substZ_spec {A B : List ℤ} {a b : List ℚ} {m : ℕ} (hA : ∀ u : ℝ, evZ A u = m * evQ a u) (hB : ∀ u : ℝ, evZ B u = m * evQ b u)
    (D : ℕ) (u : ℝ) : ∀ (c : List ℚ), (∀ q ∈ c, q.den ∣ D) →
    evZ (substZ A B (numQ D c)).2 u = m ^ c.length * evQ (subst a b c).2 u ∧
      evZ (substZ A B (numQ D c)).1 u * m = D * m ^ c.length * evQ (subst a b c).1 u
  | [], _ => by simp [numQ, substZ, subst, evZ, evQ]
  | q :: c, h => by
    obtain ⟨i1, i2⟩ := substZ_spec hA hB D u c (fun r hr => h r (List.mem_cons_of_mem _ hr))
    have hq : ((q.num * ((D / q.den : ℕ) : ℤ) : ℤ) : ℝ) = D * q := by
      have := evZ_numQ (D := D) 0 (c := [q]) (by simpa using h q (List.mem_cons_self ..))
      simpa [numQ, evZ, evQ] using this
    have e : numQ D (q :: c) = (q.num * ((D / q.den : ℕ) : ℤ)) :: numQ D c := rfl
    rw [e]
    refine ⟨?_, ?_⟩
    · simp only [substZ, subst, evZ_mul', evQ_mul, i1, hB, List.length_cons]; ring
    · simp only [substZ, subst, evZ_mul', evZ_add, evZ_smul, evQ_add, evQ_smul, evQ_mul, i1, hA, hq, List.length_cons]
      calc _ = D * q * (m ^ c.length * evQ (subst a b c).2 u) * m + m * evQ a u * (evZ (substZ A B (numQ D c)).1 u * m) := by ring
        _ = _ := by rw [i2]; ring

theorem PZ.Rep.sub {p r : PZ} {a b : List ℚ} (h : p.Rep a) (k : r.Rep b) (c : List ℚ) : (p.sub r c).Rep (subst a b c).1 := by
  have hm : 0 < p.d * r.d := Nat.mul_pos h.1 k.1
  refine ⟨Nat.mul_pos (denQ_pos c) (Nat.pow_pos hm), fun u => ?_⟩
  have := (substZ_spec (A := p.z.map ((r.d : ℤ) * ·)) (B := r.z.map ((p.d : ℤ) * ·)) (a := a) (b := b) (m := p.d * r.d)
    (fun u => by rw [evZ_smul, h.2]; push_cast; ring) (fun u => by rw [evZ_smul, k.2]; push_cast; ring) (denQ c) u c denQ_dvd).2
  have hm' : ((p.d * r.d : ℕ) : ℝ) ≠ 0 := by exact_mod_cast hm.ne'
  rcases c with _ | ⟨q, c⟩
  · simp [PZ.sub, numQ, substZ, subst, evZ, evQ]
  · simp only [PZ.sub]
    rw [List.length_cons, pow_succ] at this
    apply mul_right_cancel₀ hm'
    rw [this]
    simp only [List.length_cons, Nat.add_sub_cancel]
    push_cast
    ring

/-- the value over a common denominator -/
def PE.toZ : PE → PZ
  | .lit c => .lit c
  | .add a b => a.toZ.add b.toZ
  | .mul a b => a.toZ.mul b.toZ
  | .smul q a => a.toZ.smul q
  | .pow a n => a.toZ.pow n
  | .sub A B c => A.toZ.sub B.toZ c
  | .xmul a => ⟨0 :: a.toZ.z, a.toZ.d⟩

theorem PE.rep : ∀ e : PE, e.toZ.Rep e.toQ
  | .lit c => PZ.rep_lit c
  | .add a b => a.rep.add b.rep
  | .mul a b => a.rep.mul b.rep
  | .smul q a => a.rep.smul q
  | .pow a n => a.rep.pow n
  | .sub A B c => A.rep.sub B.rep c
  | .xmul a => a.rep.xmul

/-- coefficients times `M`, rounded down -/
def floorZ (M D : ℕ) (c : List ℤ) : List ℤ := c.map fun q => q * (M : ℤ) / (D : ℤ)

theorem floorZ_le (M : ℕ) {D : ℕ} (hD : 0 < D) {x : ℝ} (hx : 0 ≤ x) : ∀ c : List ℤ, evZ (floorZ M D c) x * D ≤ M * evZ c x
  | [] => by simp [floorZ, evZ]
  | q :: c => by
    have ih := floorZ_le M hD hx c
    have h : ((q * (M : ℤ) / (D : ℤ) : ℤ) : ℝ) * D ≤ (q : ℝ) * M := by
      have := Int.ediv_mul_le (q * (M : ℤ)) (b := (D : ℤ)) (by exact_mod_cast hD.ne')
      exact_mod_cast this
    simp only [floorZ, List.map_cons, evZ] at ih ⊢
    have := mul_le_mul_of_nonneg_left ih hx
    calc _ = ((q * (M : ℤ) / (D : ℤ) : ℤ) : ℝ) * D + x * (evZ (List.map (fun q => q * (M : ℤ) / (D : ℤ)) c) x * D) := by ring
      _ ≤ (q : ℝ) * M + x * (M * evZ c x) := by linarith
      _ = _ := by ring

/-- positivity of all of the expressions -/
def posE (M d a : ℕ) (pts : List ℕ) : List PE → Bool
  | [] => true
  | e :: L => posZN d (floorZ M e.toZ.d e.toZ.z) a pts && posE M d a pts L

theorem posE_spec {M d a : ℕ} {pts : List ℕ} {L : List PE} (h : posE M d a pts L = true) (hd : 0 < d)
    {x : ℝ} (h1 : (a : ℝ) / d ≤ x) (h2 : x < (pts.getLastD a : ℕ) / d) : ∀ e ∈ L, 0 < evQ e.toQ x := by
  induction L with
  | nil => simp
  | cons e L ih =>
    simp only [posE, Bool.and_eq_true] at h
    intro c' hc'
    rcases List.mem_cons.1 hc' with rfl | hc'
    · have hx : 0 ≤ x := le_trans (by positivity) h1
      obtain ⟨r1, r2⟩ := c'.rep
      have hp := posZN_spec hd h.1 h1 h2
      have hle := floorZ_le M r1 hx c'.toZ.z
      rw [r2] at hle
      have hD : (0 : ℝ) < c'.toZ.d := by exact_mod_cast r1
      have : 0 < (M : ℝ) * (c'.toZ.d * evQ c'.toQ x) := lt_of_lt_of_le (mul_pos hp hD) hle
      have := pos_of_mul_pos_right this (Nat.cast_nonneg M)
      exact pos_of_mul_pos_right this hD.le
    · exact ih h.2 c' hc'

end Cheb
end Npplus
