import Verif.Props.FermiAcc
import Verif.Lemmas.FermiTail
import Verif.Lemmas.FermiData

/-!
# C79: accuracy of the Fermi-Dirac functions for x ≥ 2, and for every x
-/

set_option linter.unusedSectionVars false
namespace Npplus
open Npplus.Fermi Npplus.Spec Cheb

namespace FdTail

/-! ### `1/(1+u)` as a polynomial on `[0, 1]` -/

/-- `T_20(3)` -/
def T3 : ℤ := 1023286908188737

/-- `(T_20(3) - T_20(2u-1))/(1+u)` -/
def qC : List ℤ := [1023286908188736, -1023286908187936, 1023286908081536, -1023286902463616, 1023286745563136, -1023284067794944,
  1023253638610944, -1023010205138944, 1021586119327744, -1015331311058944, 994328323293184, -939775108317184, 829482738909184,
  -655729836949504, 443365178998784, -244181775679488, 103628970917888, -31473520345088, 6047313952768, -549755813888]

def aQ (m : ℕ) : ℚ := (qC.getD m 0 : ℚ) / T3

theorem evZ_sum (u : ℝ) : ∀ L : List ℤ, evZ L u = ∑ m ∈ Finset.range L.length, ((L.getD m 0 : ℤ) : ℝ) * u ^ m
  | [] => by simp [evZ]
  | a :: L => by
    rw [evZ, evZ_sum u L, List.length_cons, Finset.sum_range_succ', Finset.mul_sum]
    simp only [List.getD_cons_succ, List.getD_cons_zero, pow_zero, mul_one]
    rw [add_comm]
    congr 1
    refine Finset.sum_congr rfl fun m _ => ?_
    ring

theorem qC_identity : addZ qC (0 :: qC) = addZ [T3] ((tau 20).1.map (-1 * ·)) := by decide +kernel

theorem aQ_spec (u : ℝ) (h0 : 0 ≤ u) (h1 : u ≤ 1) :
    |(1 + u) * (∑ m ∈ Finset.range 20, (aQ m : ℝ) * u ^ m) - 1| ≤ 1 / 10 ^ 15 := by
  have e : ∑ m ∈ Finset.range 20, (aQ m : ℝ) * u ^ m = evZ qC u / T3 := by
    rw [evZ_sum, Finset.sum_div]
    refine Finset.sum_congr rfl fun m _ => ?_
    simp only [aQ]; push_cast; ring
  have h := congrArg (fun L => evZ L u) qC_identity
  simp only [evZ_add, evZ_smul, (evZ_tau u 20).1] at h
  simp only [evZ] at h
  push_cast at h
  have hT := T_abs (v := 2 * u - 1) (by rw [abs_le]; constructor <;> linarith) 20
  have h3 : (T3 : ℝ) = 1023286908188737 := by norm_num [T3]
  rw [e, show (1 + u) * (evZ qC u / T3) - 1 = ((1 + u) * evZ qC u - T3) / T3 by rw [h3]; field_simp, abs_div, h3]
  rw [h3] at h
  rw [show (1 + u) * evZ qC u - 1023286908188737 = -T (2 * u - 1) 20 by linarith, abs_neg]
  rw [div_le_div_iff₀ (by norm_num) (by norm_num)]
  rw [abs_of_pos (by norm_num : (0 : ℝ) < 1023286908188737)]
  linarith

/-! ### the integrals as `√x x^(p-1)` times a function of `1/x` -/

/-- `c0 + c2 Σ a/M² /x² + C/x^p Σ a/M^p (eN(Mx) ± dN(Mx))` -/
structure Shape where
  c0 : ℚ
  c2 : ℚ
  C : ℚ
  p : ℕ
  sg : ℚ

noncomputable def Shape.B (h : Shape) (x : ℝ) : ℝ :=
  h.c0 + h.c2 * (∑ m ∈ Finset.range 20, (aQ m : ℝ) / ((m : ℝ) + 1) ^ 2) * (1 / x) ^ 2 +
    h.C * (1 / x) ^ h.p * ∑ m ∈ Finset.range 20, (aQ m : ℝ) / ((m : ℝ) + 1) ^ h.p * (eN (((m : ℝ) + 1) * x) + h.sg * dN (((m : ℝ) + 1) * x))

def shm12 : Shape := ⟨2, 0, 1, 1, -1⟩
def sh12 : Shape := ⟨2 / 3, 0, 1 / 2, 2, 1⟩
def sh32 : Shape := ⟨2 / 5, 3, 3 / 4, 3, -1⟩
def sh52 : Shape := ⟨2 / 7, 5, 15 / 8, 4, 1⟩

section
variable {x : ℝ}

theorem E0 (hx : 0 < x) {M : ℝ} (hM : 0 < M) : EI (-1 / 2) M x = eN (M * x) / (M * Real.sqrt x) := by
  have hs := Real.sqrt_pos.2 hx
  have := EI_scale hM hx
  rw [eN]; field_simp at this ⊢; linarith

theorem D0 (hx : 0 < x) {M : ℝ} (hM : 0 < M) : DI (-1 / 2) M x = dN (M * x) / (M * Real.sqrt x) := by
  have hs := Real.sqrt_pos.2 hx
  have := DI_scale hM hx
  rw [dN]; field_simp at this ⊢; linarith

theorem rp1 (hx : 0 < x) : x ^ (1 / 2 : ℝ) = Real.sqrt x := (Real.sqrt_eq_rpow x).symm

theorem rp3 (hx : 0 < x) : x ^ (3 / 2 : ℝ) = Real.sqrt x * x := by
  rw [show (3 / 2 : ℝ) = 1 / 2 + 1 by norm_num, Real.rpow_add hx, Real.rpow_one, rp1 hx]

theorem rp5 (hx : 0 < x) : x ^ (5 / 2 : ℝ) = Real.sqrt x * (x * x) := by
  rw [show (5 / 2 : ℝ) = 3 / 2 + 1 by norm_num, Real.rpow_add hx, Real.rpow_one, rp3 hx]; ring

theorem rp7 (hx : 0 < x) : x ^ (7 / 2 : ℝ) = Real.sqrt x * (x * x * x) := by
  rw [show (7 / 2 : ℝ) = 5 / 2 + 1 by norm_num, Real.rpow_add hx, Real.rpow_one, rp5 hx]; ring

theorem E1 (hx : 0 < x) {M : ℝ} (hM : 0 < M) : EI (1 / 2) M x = Real.sqrt x / M + 1 / 2 / M * (eN (M * x) / (M * Real.sqrt x)) := by
  rw [EI_rec (by norm_num) hM hx, rp1 hx, show (1 / 2 - 1 : ℝ) = -1 / 2 by norm_num, E0 hx hM]

theorem D1 (hx : 0 < x) {M : ℝ} (hM : 0 < M) : DI (1 / 2) M x = Real.sqrt x / M - 1 / 2 / M * (dN (M * x) / (M * Real.sqrt x)) := by
  rw [DI_rec (by norm_num) hM hx, rp1 hx, show (1 / 2 - 1 : ℝ) = -1 / 2 by norm_num, D0 hx hM]

theorem E3 (hx : 0 < x) {M : ℝ} (hM : 0 < M) : EI (3 / 2) M x = Real.sqrt x * x / M + 3 / 2 / M * EI (1 / 2) M x := by
  rw [EI_rec (by norm_num) hM hx, rp3 hx, show (3 / 2 - 1 : ℝ) = 1 / 2 by norm_num]

theorem D3 (hx : 0 < x) {M : ℝ} (hM : 0 < M) : DI (3 / 2) M x = Real.sqrt x * x / M - 3 / 2 / M * DI (1 / 2) M x := by
  rw [DI_rec (by norm_num) hM hx, rp3 hx, show (3 / 2 - 1 : ℝ) = 1 / 2 by norm_num]

theorem E5 (hx : 0 < x) {M : ℝ} (hM : 0 < M) : EI (5 / 2) M x = Real.sqrt x * (x * x) / M + 5 / 2 / M * EI (3 / 2) M x := by
  rw [EI_rec (by norm_num) hM hx, rp5 hx, show (5 / 2 - 1 : ℝ) = 3 / 2 by norm_num]

theorem D5 (hx : 0 < x) {M : ℝ} (hM : 0 < M) : DI (5 / 2) M x = Real.sqrt x * (x * x) / M - 5 / 2 / M * DI (3 / 2) M x := by
  rw [DI_rec (by norm_num) hM hx, rp5 hx, show (5 / 2 - 1 : ℝ) = 3 / 2 by norm_num]

/-- What the proof needs of an order. -/
def Expands (s : ℝ) (f : ℝ → ℝ) (h : Shape) : Prop :=
  ∀ x : ℝ, 0 < x → |fermiDirac s x - Real.sqrt x * f x * h.B x| ≤ 1 / 10 ^ 15 * fermiDirac s x

theorem expands_of {s : ℝ} {f : ℝ → ℝ} {h : Shape} (hs : -1 < s)
    (h0 : ∀ x : ℝ, 0 < x → x ^ (s + 1) / (s + 1) = Real.sqrt x * f x * h.c0)
    (hm : ∀ x M : ℝ, 0 < x → 0 < M → EI s M x - DI s M x =
      Real.sqrt x * f x * (h.c2 / M ^ 2 * (1 / x) ^ 2 + h.C * (1 / x) ^ h.p * (1 / M ^ h.p * (eN (M * x) + h.sg * dN (M * x))))) :
    Expands s f h := by
  intro x hx
  have := fermi_sum hs hx 20 (fun m => (aQ m : ℝ)) aQ_spec
  rw [h0 x hx] at this
  have e : Real.sqrt x * f x * h.B x = Real.sqrt x * f x * h.c0 + ∑ m ∈ Finset.range 20, (aQ m : ℝ) * (EI s (m + 1) x - DI s (m + 1) x) := by
    have e2 : ∀ m ∈ Finset.range 20, (aQ m : ℝ) * (EI s (m + 1) x - DI s (m + 1) x) =
        Real.sqrt x * f x * h.c2 * (1 / x) ^ 2 * ((aQ m : ℝ) / ((m : ℝ) + 1) ^ 2) +
        Real.sqrt x * f x * (h.C * (1 / x) ^ h.p) *
          ((aQ m : ℝ) / ((m : ℝ) + 1) ^ h.p * (eN (((m : ℝ) + 1) * x) + h.sg * dN (((m : ℝ) + 1) * x))) := by
      intro m _
      rw [hm x ((m : ℝ) + 1) hx (by positivity)]
      ring
    rw [Finset.sum_congr rfl e2, Finset.sum_add_distrib, ← Finset.mul_sum, ← Finset.mul_sum, Shape.B]
    ring
  rw [e]; exact this

theorem expands_m12 : Expands (-1 / 2) (fun _ => 1) shm12 := by
  refine expands_of (by norm_num) (fun x hx => ?_) (fun x M hx hM => ?_)
  · rw [show (-1 / 2 + 1 : ℝ) = 1 / 2 by norm_num, rp1 hx]; simp only [shm12]; push_cast; ring
  · have hs := Real.sqrt_pos.2 hx
    have hss : Real.sqrt x ^ 2 = x := Real.sq_sqrt hx.le
    rw [E0 hx hM, D0 hx hM]; simp only [shm12]; push_cast
    field_simp
    rw [hss]
    ring

theorem expands_12 : Expands (1 / 2) (fun x => x) sh12 := by
  refine expands_of (by norm_num) (fun x hx => ?_) (fun x M hx hM => ?_)
  · rw [show (1 / 2 + 1 : ℝ) = 3 / 2 by norm_num, rp3 hx]; simp only [sh12]; push_cast; ring
  · have hs := Real.sqrt_pos.2 hx
    have hss : Real.sqrt x ^ 2 = x := Real.sq_sqrt hx.le
    rw [E1 hx hM, D1 hx hM]; simp only [sh12]; push_cast
    field_simp
    rw [hss]
    ring

theorem expands_32 : Expands (3 / 2) (fun x => x ^ 2) sh32 := by
  refine expands_of (by norm_num) (fun x hx => ?_) (fun x M hx hM => ?_)
  · rw [show (3 / 2 + 1 : ℝ) = 5 / 2 by norm_num, rp5 hx]; simp only [sh32]; push_cast; ring
  · have hs := Real.sqrt_pos.2 hx
    have hss : Real.sqrt x ^ 2 = x := Real.sq_sqrt hx.le
    rw [E3 hx hM, D3 hx hM, E1 hx hM, D1 hx hM]; simp only [sh32]; push_cast
    field_simp
    rw [hss]
    ring

theorem expands_52 : Expands (5 / 2) (fun x => x ^ 3) sh52 := by
  refine expands_of (by norm_num) (fun x hx => ?_) (fun x M hx hM => ?_)
  · rw [show (5 / 2 + 1 : ℝ) = 7 / 2 by norm_num, rp7 hx]; simp only [sh52]; push_cast; ring
  · have hs := Real.sqrt_pos.2 hx
    have hss : Real.sqrt x ^ 2 = x := Real.sq_sqrt hx.le
    rw [E5 hx hM, D5 hx hM, E3 hx hM, D3 hx hM, E1 hx hM, D1 hx hM]; simp only [sh52]; push_cast
    field_simp
    rw [hss]
    ring

end

/-! ### certificates -/

/-- `c(u²)` -/
def sqQ : List ℚ → List ℚ
  | [] => []
  | a :: L => a :: 0 :: sqQ L

theorem evQ_sqQ : ∀ (c : List ℚ) (u : ℝ), evQ (sqQ c) u = evQ c (u ^ 2)
  | [], u => rfl
  | a :: L, u => by simp only [sqQ, evQ, evQ_sqQ L u]; push_cast; ring

/-- `Σ_{m<n} a/M^p (gE ± gD)`, in `s = 2k/x` -/
def SQ (k p : ℕ) (sg : ℚ) : ℕ → List ℚ
  | 0 => []
  | m + 1 => addQ (SQ k p sg m) ((addQ (gE (2 * ((m + 1) * k))) ((gD (2 * ((m + 1) * k))).map (sg * ·))).map (aQ m / (m + 1) ^ p * ·))

theorem evQ_SQ (k p : ℕ) (sg : ℚ) (u : ℝ) : ∀ n : ℕ, evQ (SQ k p sg n) u = ∑ m ∈ Finset.range n,
    (aQ m : ℝ) / ((m : ℝ) + 1) ^ p * (evQ (gE (2 * ((m + 1) * k))) u + sg * evQ (gD (2 * ((m + 1) * k))) u)
  | 0 => by simp [SQ, evQ]
  | n + 1 => by rw [SQ, evQ_add, evQ_SQ k p sg u n, Finset.sum_range_succ, evQ_smul, evQ_add, evQ_smul]; push_cast; ring

def sumA (p : ℕ) : ℕ → ℚ
  | 0 => 0
  | m + 1 => sumA p m + aQ m / (m + 1) ^ p

theorem sumA_eq (p : ℕ) : ∀ n : ℕ, ((sumA p n : ℚ) : ℝ) = ∑ m ∈ Finset.range n, (aQ m : ℝ) / ((m : ℝ) + 1) ^ p
  | 0 => by simp [sumA]
  | n + 1 => by rw [sumA, Finset.sum_range_succ, ← sumA_eq p n]; push_cast; ring

def sumAbs (p : ℕ) : ℕ → ℚ
  | 0 => 0
  | m + 1 => sumAbs p m + |aQ m| / (m + 1) ^ p

theorem sumAbs_eq (p : ℕ) : ∀ n : ℕ, ((sumAbs p n : ℚ) : ℝ) = ∑ m ∈ Finset.range n, |(aQ m : ℝ)| / ((m : ℝ) + 1) ^ p
  | 0 => by simp [sumAbs]
  | n + 1 => by rw [sumAbs, Finset.sum_range_succ, ← sumAbs_eq p n]; push_cast; ring

/-- the approximation of `B` on `2k ≤ x`, in `s = 2k/x` -/
def Shape.poly (h : Shape) (k : ℕ) : List ℚ :=
  addQ [h.c0, 0, h.c2 * sumA 2 20 / (2 * k) ^ 2] (mulQ (List.replicate h.p 0 ++ [h.C / (2 * k) ^ h.p]) (SQ k h.p h.sg 20))

theorem evQ_replicate (p : ℕ) (u : ℝ) : evQ (List.replicate p 0) u = 0 := by
  induction p with
  | zero => rfl
  | succ n ih => rw [List.replicate_succ, evQ, ih]; simp

/-- the rounding bound of the approximation -/
def Shape.etaOk (h : Shape) (η : ℚ) : Bool :=
  decide (0 ≤ h.C) && decide (|h.sg| = 1) && decide (h.C * (1 / 2) ^ h.p * (sumAbs h.p 20 * (8 / 10 ^ 15)) ≤ η)

theorem poly_close {h : Shape} {η : ℚ} (hη : h.etaOk η = true) {k : ℕ} (hk : 0 < k) {x : ℝ} (h1 : ((2 * k : ℕ) : ℝ) ≤ x)
    (h2 : 2 * k < 32 → x ≤ 2 * (2 * k : ℕ)) : |evQ (h.poly k) ((2 * k : ℕ) / x) - h.B x| ≤ η := by
  simp only [Shape.etaOk, Bool.and_eq_true, decide_eq_true_eq] at hη
  obtain ⟨⟨hC, hsg⟩, hη⟩ := hη
  have hC' : (0 : ℝ) ≤ h.C := by exact_mod_cast hC
  have hsg' : |(h.sg : ℝ)| = 1 := by exact_mod_cast hsg
  have hη' : (h.C : ℝ) * (1 / 2) ^ h.p * ((sumAbs h.p 20 : ℚ) * (8 / 10 ^ 15)) ≤ η := by
    have := (Rat.cast_le (K := ℝ)).2 hη
    push_cast at this
    linarith
  have hk' : (0 : ℝ) < k := by exact_mod_cast hk
  have hk1 : (1 : ℝ) ≤ k := by exact_mod_cast hk
  have hx2 : 2 ≤ x := by push_cast at h1; linarith
  have hx : 0 < x := by linarith
  obtain ⟨s, hs⟩ : ∃ s : ℝ, s = (2 * k : ℕ) / x := ⟨_, rfl⟩
  have hsx : s / (2 * k) = 1 / x := by rw [hs]; push_cast; field_simp
  rw [← hs]
  have e : evQ (h.poly k) s - h.B x = h.C * (1 / x) ^ h.p * ∑ m ∈ Finset.range 20, (aQ m : ℝ) / ((m : ℝ) + 1) ^ h.p *
      ((evQ (gE (2 * ((m + 1) * k))) s - eN (((m : ℝ) + 1) * x)) + h.sg * (evQ (gD (2 * ((m + 1) * k))) s - dN (((m : ℝ) + 1) * x))) := by
    have e1 : evQ (h.poly k) s = h.c0 + h.c2 * (sumA 2 20 : ℚ) * (s / (2 * k)) ^ 2 + h.C * (s / (2 * k)) ^ h.p * evQ (SQ k h.p h.sg 20) s := by
      rw [Shape.poly, evQ_add, evQ_mul, evQ_append, evQ_replicate, List.length_replicate]
      simp only [evQ]
      push_cast
      rw [div_pow, div_pow]
      ring
    rw [e1, hsx, sumA_eq, evQ_SQ, Shape.B, add_sub_add_left_eq_sub, ← mul_sub, ← Finset.sum_sub_distrib]
    congr 1
    refine Finset.sum_congr rfl fun m _ => ?_
    ring
  rw [e, abs_mul, abs_of_nonneg (by positivity : 0 ≤ (h.C : ℝ) * (1 / x) ^ h.p)]
  refine le_trans ?_ hη'
  have hb : |∑ m ∈ Finset.range 20, (aQ m : ℝ) / ((m : ℝ) + 1) ^ h.p *
      ((evQ (gE (2 * ((m + 1) * k))) s - eN (((m : ℝ) + 1) * x)) + h.sg * (evQ (gD (2 * ((m + 1) * k))) s - dN (((m : ℝ) + 1) * x)))| ≤
      (sumAbs h.p 20 : ℚ) * (8 / 10 ^ 15) := by
    rw [sumAbs_eq, Finset.sum_mul]
    refine (Finset.abs_sum_le_sum_abs _ _).trans (Finset.sum_le_sum fun m _ => ?_)
    rw [abs_mul, abs_div, abs_of_pos (by positivity : (0 : ℝ) < ((m : ℝ) + 1) ^ h.p)]
    refine mul_le_mul_of_nonneg_left ?_ (by positivity)
    have hm : (0 : ℝ) < (m : ℝ) + 1 := by positivity
    have hm1 : (1 : ℝ) ≤ (m : ℝ) + 1 := by have : (0 : ℝ) ≤ m := Nat.cast_nonneg m; linarith
    have hn0 : 0 < (m + 1) * k := by positivity
    have c1 : ((2 * ((m + 1) * k) : ℕ) : ℝ) ≤ ((m : ℝ) + 1) * x := by
      push_cast at h1 ⊢
      nlinarith
    have c2 : 2 * ((m + 1) * k) < 32 → ((m : ℝ) + 1) * x ≤ 2 * (2 * ((m + 1) * k) : ℕ) := by
      intro hlt
      have := h2 (by nlinarith)
      push_cast at this ⊢
      nlinarith
    have c3 : ((2 * ((m + 1) * k) : ℕ) : ℝ) / (((m : ℝ) + 1) * x) = s := by rw [hs]; push_cast; field_simp
    have gd := goodD hn0 c1 c2
    have ge := goodE hn0 c1 c2
    rw [c3] at gd ge
    have hy : 2 ≤ ((m : ℝ) + 1) * x := by nlinarith
    have d3 := dN_le_three (y := ((m : ℝ) + 1) * x) (by linarith)
    have e1 := eN_le_one (y := ((m : ℝ) + 1) * x) (by linarith)
    refine (abs_add_le _ _).trans ?_
    rw [abs_mul, hsg', one_mul]
    linarith
  have hp : (1 / x) ^ h.p ≤ (1 / 2 : ℝ) ^ h.p := by
    refine pow_le_pow_left₀ (by positivity) ?_ _
    exact one_div_le_one_div_of_le (by norm_num) hx2
  have h0 : 0 ≤ ((sumAbs h.p 20 : ℚ) : ℝ) * (8 / 10 ^ 15) := le_trans (abs_nonneg _) hb
  exact mul_le_mul (mul_le_mul_of_nonneg_left hp hC') hb (abs_nonneg _) (by positivity)

/-- Certificate for one function and one panel: with `P/Q` the rational function of the code and `ε' = ε - 1e-14`,
`(1-ε')B + … < P/Q < (1+ε')B - …`. -/
structure CertHi (h : Shape) (c : Coef) (k : ℕ) (sgn ε η : ℚ) : Prop where
  q : posFl (10 ^ 60) 1000 ((scaleQ (1 / (2 * k)) (sqQ c.bden.reverse)).map (sgn * ·)) (if 2 * k < 32 then 500 else 0)
    (if 2 * k < 32 then [750, 1001] else [250, 500, 750, 1001]) = true
  up : posFl (10 ^ 60) 1000 (addQ (mulQ ((scaleQ (1 / (2 * k)) (sqQ c.bden.reverse)).map (sgn * ·))
      (addQ ((h.poly k).map ((1 + ε) * ·)) [-(1 + ε) * η])) ((scaleQ (1 / (2 * k)) (sqQ c.bnum.reverse)).map (-sgn * ·)))
    (if 2 * k < 32 then 500 else 0) (if 2 * k < 32 then [750, 1001] else [250, 500, 750, 1001]) = true
  lo : posFl (10 ^ 60) 1000 (addQ ((scaleQ (1 / (2 * k)) (sqQ c.bnum.reverse)).map (sgn * ·))
      (mulQ ((scaleQ (1 / (2 * k)) (sqQ c.bden.reverse)).map (-sgn * ·)) (addQ ((h.poly k).map ((1 - ε) * ·)) [(1 + ε) * η])))
    (if 2 * k < 32 then 500 else 0) (if 2 * k < 32 then [750, 1001] else [250, 500, 750, 1001]) = true

theorem certHi_spec {h : Shape} {c : Coef} {k : ℕ} {sgn ε η : ℚ} (hc : CertHi h c k sgn ε η) (hη : h.etaOk η = true)
    (hε : 0 ≤ ε) (hε1 : ε ≤ 1) (hk : 0 < k) {x : ℝ} (h1 : ((2 * k : ℕ) : ℝ) ≤ x) (h2 : 2 * k < 32 → x ≤ 2 * (2 * k : ℕ)) :
    (1 - ε) * h.B x < decPoly c.bnum (1 / x ^ 2) / decPoly c.bden (1 / x ^ 2) ∧
      decPoly c.bnum (1 / x ^ 2) / decPoly c.bden (1 / x ^ 2) < (1 + ε) * h.B x := by
  have hcl := poly_close hη hk h1 h2
  have hk' : (0 : ℝ) < k := by exact_mod_cast hk
  have hx : 0 < x := lt_of_lt_of_le (by positivity) h1
  set s : ℝ := (2 * k : ℕ) / x with hs
  have hs0 : 0 < s := by rw [hs]; positivity
  have hs1 : s ≤ 1 := (div_le_one hx).2 h1
  have hsx : 1 / (2 * (k : ℝ)) * s = 1 / x := by rw [hs]; push_cast; field_simp
  have b1 : (((if 2 * k < 32 then 500 else 0 : ℤ)) : ℝ) / ((1000 : ℤ) : ℝ) ≤ s := by
    split_ifs with h32
    · rw [hs, le_div_iff₀ hx]; have := h2 h32; push_cast at this ⊢; linarith
    · simpa using hs0.le
  have b2 : s < (((if 2 * k < 32 then [750, 1001] else [250, 500, 750, 1001] : List ℤ).getLastD
      (if 2 * k < 32 then 500 else 0) : ℤ) : ℝ) / ((1000 : ℤ) : ℝ) := by
    split_ifs with h32 <;> · simp only [List.getLastD]; norm_num; linarith
  have b0 : (0 : ℤ) ≤ (if 2 * k < 32 then 500 else 0) := by split_ifs <;> norm_num
  have q := posFl_spec (by norm_num) hc.q b0 b1 b2
  have up := posFl_spec (by norm_num) hc.up b0 b1 b2
  have lo := posFl_spec (by norm_num) hc.lo b0 b1 b2
  have hnum : ∀ L : List ℚ, evQ (scaleQ (1 / (2 * k)) (sqQ L.reverse)) s = decPoly L (1 / x ^ 2) := by
    intro L
    rw [evQ_scaleQ, evQ_sqQ, evQ_reverse]
    congr 1
    push_cast
    rw [hsx, one_div_pow]
  simp only [evQ_add, evQ_mul, evQ_smul, hnum, evQ] at q up lo
  push_cast at up lo
  set N := decPoly c.bnum (1 / x ^ 2)
  set Dn := decPoly c.bden (1 / x ^ 2)
  set Bh := evQ (h.poly k) s
  have hD : Dn ≠ 0 := by rintro hz; rw [hz] at q; simp at q
  have hsg : (sgn : ℝ) ≠ 0 := by rintro hz; rw [hz] at q; simp at q
  have hR : N / Dn = (sgn * N) / (sgn * Dn) := by field_simp
  have hε' : (0 : ℝ) ≤ ε := by exact_mod_cast hε
  have hε1' : (ε : ℝ) ≤ 1 := by exact_mod_cast hε1
  have hη0 : (0 : ℝ) ≤ η := le_trans (abs_nonneg _) hcl
  obtain ⟨l1, l2⟩ := abs_le.1 hcl
  rw [hR]
  constructor
  · rw [lt_div_iff₀ q]
    have : (1 - ε) * h.B x ≤ (1 - ε) * Bh + (1 + ε) * η := by nlinarith
    have := mul_le_mul_of_nonneg_right this q.le
    linarith
  · rw [div_lt_iff₀ q]
    have : (1 + ε) * Bh - (1 + ε) * η ≤ (1 + ε) * h.B x := by nlinarith
    have := mul_le_mul_of_nonneg_right this q.le
    linarith

/-- The certificates of the five panels. -/
def AllHi (h : Shape) (c : Coef) (sgn ε η : ℚ) : Prop := ∀ k ∈ [1, 2, 4, 8, 16], CertHi h c k sgn ε η

theorem accuracy_hi {s : ℝ} {f : ℝ → ℝ} (hf : ∀ x, 0 < x → 0 < f x) {h : Shape} (hE : Expands s f h) {c : Coef} {sgn ε η : ℚ}
    (hc : AllHi h c sgn ε η) (hη : h.etaOk η = true) (hε : 0 ≤ ε) (hε1 : ε ≤ 1) {x : ℝ} (hx2 : 2 ≤ x) :
    |Real.sqrt x * f x * decPoly c.bnum (1 / x ^ 2) / decPoly c.bden (1 / x ^ 2) - fermiDirac s x| ≤
      ((ε : ℝ) + 1 / 10 ^ 14) * fermiDirac s x := by
  have hx : 0 < x := by linarith
  have hk : ∃ k ∈ [1, 2, 4, 8, 16], 0 < k ∧ ((2 * k : ℕ) : ℝ) ≤ x ∧ (2 * k < 32 → x ≤ 2 * (2 * k : ℕ)) := by
    by_cases a1 : x ≤ 4
    · exact ⟨1, by simp, by norm_num, by push_cast; linarith, fun _ => by push_cast; linarith⟩
    by_cases a2 : x ≤ 8
    · exact ⟨2, by simp, by norm_num, by push_cast; linarith, fun _ => by push_cast; linarith⟩
    by_cases a3 : x ≤ 16
    · exact ⟨4, by simp, by norm_num, by push_cast; linarith, fun _ => by push_cast; linarith⟩
    by_cases a4 : x ≤ 32
    · exact ⟨8, by simp, by norm_num, by push_cast; linarith, fun _ => by push_cast; linarith⟩
    · exact ⟨16, by simp, by norm_num, by push_cast; linarith, fun h => by norm_num at h⟩
  obtain ⟨k, hk1, hk0, h1, h2⟩ := hk
  obtain ⟨u, v⟩ := certHi_spec (hc k hk1) hη hε hε1 hk0 h1 h2
  have hF := hE x hx
  set F := fermiDirac s x
  have hF0 : 0 ≤ F := by have := le_trans (abs_nonneg _) hF; linarith
  set R := decPoly c.bnum (1 / x ^ 2) / decPoly c.bden (1 / x ^ 2)
  have hW : 0 < Real.sqrt x * f x := mul_pos (Real.sqrt_pos.2 hx) (hf x hx)
  rw [mul_div_assoc]
  set W := Real.sqrt x * f x
  have hε' : (0 : ℝ) ≤ ε := by exact_mod_cast hε
  have hε1' : (ε : ℝ) ≤ 1 := by exact_mod_cast hε1
  obtain ⟨f1, f2⟩ := abs_le.1 hF
  have u' := mul_lt_mul_of_pos_left u hW
  have v' := mul_lt_mul_of_pos_left v hW
  have w1 : W * ((1 - ε) * h.B x) = (1 - ε) * (W * h.B x) := by ring
  have w2 : W * ((1 + ε) * h.B x) = (1 + ε) * (W * h.B x) := by ring
  rw [w1] at u'
  rw [w2] at v'
  have z1 : (1 - (ε : ℝ)) * ((1 - 1 / 10 ^ 15) * F) ≤ (1 - ε) * (W * h.B x) := mul_le_mul_of_nonneg_left (by linarith) (by linarith)
  have z2 : (1 + (ε : ℝ)) * (W * h.B x) ≤ (1 + ε) * ((1 + 1 / 10 ^ 15) * F) := mul_le_mul_of_nonneg_left (by linarith) (by linarith)
  have z3 : 0 ≤ (ε : ℝ) * F := by positivity
  have z4 : (ε : ℝ) * F ≤ F := by nlinarith
  rw [abs_le]
  constructor <;> nlinarith

theorem allHi_m12 : AllHi shm12 fdm12Coef (-1) (3 / 10 ^ 12 - 1 / 10 ^ 14) (2 / 10 ^ 13) := by
  intro k hk
  simp only [List.mem_cons, List.not_mem_nil, or_false] at hk
  rcases hk with rfl | rfl | rfl | rfl | rfl <;> constructor <;> decide +kernel

theorem allHi_12 : AllHi sh12 fd12Coef 1 (1 / 10 ^ 12 - 1 / 10 ^ 14) (1 / 10 ^ 13) := by
  intro k hk
  simp only [List.mem_cons, List.not_mem_nil, or_false] at hk
  rcases hk with rfl | rfl | rfl | rfl | rfl <;> constructor <;> decide +kernel

theorem allHi_32 : AllHi sh32 fd32Coef 1 (1 / 10 ^ 12 - 1 / 10 ^ 14) (5 / 10 ^ 14) := by
  intro k hk
  simp only [List.mem_cons, List.not_mem_nil, or_false] at hk
  rcases hk with rfl | rfl | rfl | rfl | rfl <;> constructor <;> decide +kernel

theorem allHi_52 : AllHi sh52 fd52Coef 1 (1 / 10 ^ 12 - 1 / 10 ^ 14) (5 / 10 ^ 14) := by
  intro k hk
  simp only [List.mem_cons, List.not_mem_nil, or_false] at hk
  rcases hk with rfl | rfl | rfl | rfl | rfl <;> constructor <;> decide +kernel

end FdTail

open FdTail

/-- `F x` is an array of the shape of `x`, and each of its elements is the Fermi-Dirac integral of order `j` of the element of
`x` within a relative error of `eps`. -/
def Accurate (F : NdArr ℝ → NdArr ℝ) (j eps : ℝ) : Prop :=
  ∀ x : NdArr ℝ, (F x).shape = x.shape ∧ ∀ idx, ValidIdx x.shape idx →
    |(F x).get idx - fermiDirac j (x.get idx)| ≤ eps * fermiDirac j (x.get idx)

theorem fermiDirac_nonneg (j x : ℝ) : 0 ≤ fermiDirac j x :=
  MeasureTheory.setIntegral_nonneg measurableSet_Ioi fun t (ht : 0 < t) => by positivity

theorem accurate_all {F : NdArr ℝ → NdArr ℝ} {c : Coef} {f : ℝ → ℝ} {j eps : ℝ} (hF : Elementwise F (fdValue c f))
    (hlo : AccurateBelowTwo F j (1 / 10 ^ 12)) (heps : 1 / 10 ^ 12 ≤ eps)
    (hhi : ∀ x : ℝ, 2 ≤ x → |Real.sqrt x * f x * decPoly c.bnum (1 / x ^ 2) / decPoly c.bden (1 / x ^ 2) - fermiDirac j x| ≤
      eps * fermiDirac j x) : Accurate F j eps := by
  intro x
  refine ⟨(hF x).1, fun idx hv => ?_⟩
  by_cases hx : x.get idx < 2
  · exact ((hlo x).2 idx hv hx).trans (mul_le_mul_of_nonneg_right heps (fermiDirac_nonneg _ _))
  · rw [(hF x).2 idx hv, fdValue, if_neg hx]
    exact hhi _ (not_lt.1 hx)

/-- **C79**: the four functions are the Fermi-Dirac integrals `∫₀^∞ t^j/(exp(t-x)+1) dt` of order -1/2, 1/2, 3/2, 5/2 to a
relative accuracy of "about 1e-12" (1e-12, and 3e-12 for the order -1/2), for every real x, elementwise for every array. -/
theorem C79_fd_accuracy : Accurate fdm12 (-1 / 2) (3 / 10 ^ 12) ∧ Accurate fd12 (1 / 2) (1 / 10 ^ 12) ∧
    Accurate fd32 (3 / 2) (1 / 10 ^ 12) ∧ Accurate fd52 (5 / 2) (1 / 10 ^ 12) := by
  obtain ⟨h1, h2, h3, h4⟩ := C70_fd
  obtain ⟨l1, l2, l3, l4⟩ := C79_fd_accuracy_below_two
  refine ⟨accurate_all h1 l1 (by norm_num) fun x hx => ?_, accurate_all h2 l2 le_rfl fun x hx => ?_,
    accurate_all h3 l3 le_rfl fun x hx => ?_, accurate_all h4 l4 le_rfl fun x hx => ?_⟩
  · have := accuracy_hi (fun _ _ => one_pos) expands_m12 allHi_m12 (by decide +kernel) (by norm_num) (by norm_num) hx
    refine this.trans_eq ?_; push_cast; ring
  · have := accuracy_hi (fun x hx => hx) expands_12 allHi_12 (by decide +kernel) (by norm_num) (by norm_num) hx
    refine this.trans_eq ?_; push_cast; ring
  · have := accuracy_hi (fun x hx => pow_pos hx 2) expands_32 allHi_32 (by decide +kernel) (by norm_num) (by norm_num) hx
    refine this.trans_eq ?_; push_cast; ring
  · have := accuracy_hi (fun x hx => pow_pos hx 3) expands_52 allHi_52 (by decide +kernel) (by norm_num) (by norm_num) hx
    refine this.trans_eq ?_; push_cast; ring

/-- Two elements, x = -1 and x = 10, one on each side of the switch. -/
example : |(fdm12 ⟨[2], fun i => if i = [0] then -1 else 10⟩).get [0] - fermiDirac (-1 / 2) (-1)| ≤ 3 / 10 ^ 12 * fermiDirac (-1 / 2) (-1) ∧
    |(fdm12 ⟨[2], fun i => if i = [0] then -1 else 10⟩).get [1] - fermiDirac (-1 / 2) 10| ≤ 3 / 10 ^ 12 * fermiDirac (-1 / 2) 10 := by
  have h := (C79_fd_accuracy.1 ⟨[2], fun i => if i = [0] then -1 else 10⟩).2
  constructor
  · simpa using h [0] (by simp [ValidIdx])
  · simpa using h [1] (by simp [ValidIdx])

end Npplus
