import Verif.Lemmas.Knots
import Mathlib.Algebra.Algebra.Defs
import Mathlib.Algebra.Algebra.Basic

/-! Helper lemmas about PwPoly arithmetic. -/

set_option linter.unusedSectionVars false
namespace Npplus
open Spec PwPoly

variable {K : Type} [Field K] [LinearOrder K] [IsStrictOrderedRing K]
variable {V : Type} [AddCommGroup V] [Module K V]

theorem defaultTol_nonneg : (0:K) ≤ defaultTol K := by unfold defaultTol; positivity

theorem Spec.WF.knots {p : PwPoly K V} (hp : WF p) : Knots p.xk := ⟨hp.ne, hp.inc⟩

theorem allknotsGo_one {tol : K} (ht : 0 ≤ tol) {xk yk : List K} (hx : Knots xk) (hy : Knots yk) :
    (allknotsGo tol (xk, false) [yk] = .ok (xk, false) ∧ (xk = yk ∨ ∃ x y, xk = [x] ∧ yk = [y] ∧
        |x - y| ≤ tol + tol * |y|)) ∨
    ∃ u, allknotsGo tol (xk, false) [yk] = .ok (u, true) ∧ allknotsStep tol xk yk = .ok (some u) ∧
      Knots u ∧ (∀ z ∈ u, z ∈ xk ∨ z ∈ yk) := by
  rcases allknotsStep_spec ht hx hy with ⟨h1, h2⟩ | ⟨u, h1, hu, _, hsub, _⟩
  · left; refine ⟨?_, h2⟩; simp [allknotsGo, h1]
  · right; exact ⟨u, by simp [allknotsGo, h1], h1, hu, hsub⟩

/-- What `_binary` guarantees about two operands `p`, `q` brought to common knots as `a`, `b`. -/
structure Common {W : Type} [AddCommGroup W] [Module K W] (p : PwPoly K V) (q : PwPoly K W)
    (a : PwPoly K V) (b : PwPoly K W) : Prop where
  wa : WF a
  wb : WF b
  na : a.n = p.n
  nb : b.n = q.n
  len : b.c.length = a.c.length
  sub : ∀ z ∈ a.xk, z ∈ p.xk ∨ z ∈ q.xk
  loc : (p.xk = q.xk ∨ 1 < p.xk.length ∨ 1 < q.xk.length ∨ (p.xk ⊆ a.xk ∧ q.xk ⊆ a.xk)) →
    b.xk = a.xk ∧ ∀ x, (∀ k, k ∈ p.xk ∨ k ∈ q.xk → k ∉ a.xk → ¬ SameInterval a.xk x k) →
      a.call x = p.call x ∧ b.call x = q.call x
  keep : ∀ D, Separated (defaultTol K) D p.xk q.xk → p.xk ⊆ a.xk ∧ q.xk ⊆ a.xk

theorem commonKnots_spec {W : Type} [AddCommGroup W] [Module K W] {p : PwPoly K V} {q : PwPoly K W}
    (hp : WF p) (hq : WF q) : ∃ a b, commonKnots p q = .ok (a, b) ∧ Common p q a b := by
  have ht := defaultTol_nonneg (K := K)
  rcases allknotsGo_one ht hp.knots hq.knots with ⟨h1, h2⟩ | ⟨u, h1, hst, hu, hsub⟩
  · refine ⟨p, q, by simp [commonKnots, h1], ⟨hp, hq, rfl, rfl, ?_, fun z hz => Or.inl hz, ?_, ?_⟩⟩
    · rw [hp.len, hq.len]
      rcases h2 with h2 | ⟨x, y, h3, h4, _⟩
      · rw [h2]
      · rw [h3, h4]; rfl
    · intro h
      refine ⟨?_, fun x _ => ⟨rfl, rfl⟩⟩
      rcases h2 with h2 | ⟨x, y, h3, h4, _⟩
      · exact h2.symm
      · rcases h with h | h | h | h
        · exact h.symm
        · rw [h3] at h; simp at h
        · rw [h4] at h; simp at h
        · have := h.2
          rw [h3, h4] at this ⊢
          simp at this; rw [this]
    · intro D hD
      obtain ⟨r, hr, hmem⟩ := allknotsStep_separated ht hp.knots hq.knots hD
      have : r = none := by
        have h1' := h1
        simp only [allknotsGo, hr] at h1'
        cases r with
        | none => rfl
        | some _ => simp at h1'
      subst this
      simp only [Option.getD_none] at hmem
      exact ⟨fun z hz => hz, fun z hz => (hmem z).mpr (Or.inr hz)⟩
  · refine ⟨p.addknotsRaw u, q.addknotsRaw u, by simp [commonKnots, h1], ⟨addknotsRaw_WF hp hu,
      addknotsRaw_WF hq hu, rfl, rfl, ?_, hsub, ?_, ?_⟩⟩
    · rw [addknotsRaw_length hu.ne, addknotsRaw_length hu.ne]
    · intro _
      refine ⟨rfl, fun x hx => ⟨?_, ?_⟩⟩
      · exact addknotsRaw_call hp hu x fun k hk => hx k (Or.inl hk)
      · exact addknotsRaw_call hq hu x fun k hk => hx k (Or.inr hk)
    · intro D hD
      obtain ⟨r, hr, hmem⟩ := allknotsStep_separated ht hp.knots hq.knots hD
      rw [hst] at hr
      cases hr
      simp only [Option.getD_some] at hmem
      exact ⟨fun z hz => (hmem z).mpr (Or.inl hz), fun z hz => (hmem z).mpr (Or.inr hz)⟩

/-! ### padding -/

theorem polyVal_append (l m : List V) (x : K) :
    polyVal (l ++ m) x = polyVal l x + x ^ l.length • polyVal m x := by
  induction l with
  | nil => simp
  | cons a l ih =>
    simp only [List.cons_append, polyVal_cons, ih, List.length_cons, smul_add, smul_smul, pow_succ']
    abel

theorem polyVal_replicate_zero (n : ℕ) (x : K) : polyVal (List.replicate n (0:V)) x = 0 := by
  induction n with
  | zero => simp
  | succ n ih => simp [List.replicate_succ, polyVal_cons, ih]

theorem padTo_WF {p : PwPoly K V} (hp : WF p) (nd : ℕ) (h : p.deg ≤ nd) :
    WF (p.padTo nd) ∧ (p.padTo nd).n = nd + 1 ∧ (p.padTo nd).xk = p.xk := by
  have := hp.pos
  unfold deg at h
  unfold padTo
  split
  · refine ⟨⟨hp.ne, hp.inc, by simpa using hp.len, by simp only; omega, ?_⟩, ?_, rfl⟩
    · intro l hl
      simp only [List.mem_map] at hl
      obtain ⟨m, hm, rfl⟩ := hl
      simp [hp.row m hm]
    · simp only [deg]; omega
  · rename_i h2
    unfold deg at h2
    exact ⟨hp, by omega, rfl⟩

theorem padTo_call {p : PwPoly K V} (hp : WF p) (nd : ℕ) (h : p.deg ≤ nd) (x : K) :
    (p.padTo nd).call x = p.call x := by
  rw [call_eq (padTo_WF hp nd h).1, call_eq hp, (padTo_WF hp nd h).2.2]
  unfold pieceVal
  rw [(padTo_WF hp nd h).2.2]
  unfold padTo
  split
  · unfold piece
    have := searchsorted_le p.xk x
    rw [getD_map_ne _ _ _ (by rw [hp.len]; omega) [], polyVal_append, polyVal_replicate_zero,
      smul_zero, add_zero]
  · rfl

theorem binary_spec {p q : PwPoly K V} (hp : WF p) (hq : WF q) :
    ∃ a b, binary p q = .ok (a, b) ∧ Common (p.padTo (max p.deg q.deg)) (q.padTo (max p.deg q.deg)) a b :=
  commonKnots_spec (padTo_WF hp _ (le_max_left _ _)).1 (padTo_WF hq _ (le_max_right _ _)).1

theorem binary_n {p q a b : PwPoly K V} (hp : WF p) (hq : WF q)
    (h : Common (p.padTo (max p.deg q.deg)) (q.padTo (max p.deg q.deg)) a b) :
    a.n = max p.n q.n ∧ b.n = max p.n q.n := by
  have h1 := (padTo_WF hp (max p.deg q.deg) (le_max_left _ _)).2.1
  have h2 := (padTo_WF hq (max p.deg q.deg) (le_max_right _ _)).2.1
  have := hp.pos
  have := hq.pos
  rw [h.na, h.nb, h1, h2]
  unfold deg
  omega

/-! ### termwise operations -/

theorem polyVal_zipWith (f : V → V → V) (hf : ∀ (a b c d : V) (t : K), f (a + t • b) (c + t • d) =
    f a c + t • f b d) (h0 : f 0 0 = 0) (l m : List V) (h : l.length = m.length) (x : K) :
    polyVal (List.zipWith f l m) x = f (polyVal l x) (polyVal m x) := by
  induction l generalizing m with
  | nil =>
    cases m with
    | nil => simp [h0]
    | cons _ _ => simp at h
  | cons a l ih =>
    cases m with
    | nil => simp at h
    | cons b m =>
      simp only [List.zipWith_cons_cons, polyVal_cons, hf]
      rw [ih m (by simpa using h)]

theorem zipWith_WF {a b : PwPoly K V} (ha : WF a) (hb : WF b) (hn : a.n = b.n)
    (hl : b.c.length = a.c.length) (f : V → V → V) :
    WF (⟨a.xk, a.n, List.zipWith (List.zipWith f) a.c b.c⟩ : PwPoly K V) := by
  refine ⟨ha.ne, ha.inc, by simp [hl, ha.len], ha.pos, ?_⟩
  intro l hlm
  obtain ⟨i, hi, rfl⟩ := List.getElem_of_mem hlm
  simp only [List.length_zipWith] at hi
  rw [List.getElem_zipWith, List.length_zipWith, ha.row _ (List.getElem_mem _),
    hb.row _ (List.getElem_mem _), ← hn]
  simp

theorem zipWith_call {a b : PwPoly K V} (ha : WF a) (hb : WF b) (hn : a.n = b.n)
    (hx : b.xk = a.xk) (f : V → V → V)
    (hf : ∀ (a b c d : V) (t : K), f (a + t • b) (c + t • d) = f a c + t • f b d) (h0 : f 0 0 = 0)
    (x : K) :
    (⟨a.xk, a.n, List.zipWith (List.zipWith f) a.c b.c⟩ : PwPoly K V).call x =
      f (a.call x) (b.call x) := by
  have hl : b.c.length = a.c.length := by rw [ha.len, hb.len, hx]
  rw [call_eq (zipWith_WF ha hb hn hl f), call_eq ha, call_eq hb, hx]
  unfold pieceVal piece
  have h1 := searchsorted_le a.xk x
  have h2 := ha.len
  simp only [hx]
  rw [List.getD_eq_getElem _ _ (by simp; omega), List.getElem_zipWith,
    List.getD_eq_getElem _ _ (by omega), List.getD_eq_getElem _ _ (by omega),
    polyVal_zipWith f hf h0]
  rw [ha.row _ (List.getElem_mem _), hb.row _ (List.getElem_mem _), hn]

/-! ### products -/

section product
variable {R : Type} [CommRing R] [Algebra K R]

theorem polyVal_map_mul (c : List R) (d : R) (x : K) :
    polyVal (c.map (· * d)) x = polyVal c x * d := by
  induction c with
  | nil => simp
  | cons a c ih => simp only [List.map_cons, polyVal_cons, ih, add_mul, smul_mul_assoc]

theorem mulStep (c prod : List R) (d : R) (i : ℕ) (x : K) (h : i + c.length ≤ prod.length) :
    (prod.take i ++ List.zipWith (· + ·) ((prod.drop i).take c.length) (c.map (· * d))
        ++ prod.drop (i + c.length)).length = prod.length ∧
    polyVal (prod.take i ++ List.zipWith (· + ·) ((prod.drop i).take c.length) (c.map (· * d))
        ++ prod.drop (i + c.length)) x = polyVal prod x + (x ^ i • (polyVal c x * d)) := by
  constructor
  · simp; omega
  · have e : prod = prod.take i ++ ((prod.drop i).take c.length ++ prod.drop (i + c.length)) := by
      rw [← List.drop_drop, List.take_append_drop, List.take_append_drop]
    conv_rhs => rw [e]
    rw [List.append_assoc, polyVal_append, polyVal_append (List.zipWith _ _ _),
      polyVal_append (prod.take i), polyVal_append ((prod.drop i).take c.length)]
    rw [polyVal_zipWith (fun a b : R => a + b) (fun a b c d t => by module) (by simp) _ _
      (by simp; omega)]
    rw [polyVal_map_mul]
    have l1 : (List.zipWith (fun a b : R => a + b) ((prod.drop i).take c.length)
        (c.map (· * d))).length = ((prod.drop i).take c.length).length := by simp
    rw [l1]
    have l2 : (prod.take i).length = i := by simp; omega
    simp only [smul_add, l2]
    abel

theorem mulPiece_aux (c : List R) (x : K) (other : List R) (i : ℕ) (prod : List R)
    (h : i + other.length + c.length ≤ prod.length + 1) :
    let r := (other.zipIdx i).foldl
      (fun prod (d, i) =>
        prod.take i ++ List.zipWith (· + ·) ((prod.drop i).take c.length) (c.map (· * d))
          ++ prod.drop (i + c.length)) prod
    r.length = prod.length ∧
      polyVal r x = polyVal prod x + x ^ i • (polyVal c x * polyVal other x) := by
  induction other generalizing i prod with
  | nil => simp
  | cons d other ih =>
    simp only [List.zipIdx_cons, List.foldl_cons]
    simp only [List.length_cons] at h
    obtain ⟨s1, s2⟩ := mulStep c prod d i x (by omega)
    obtain ⟨r1, r2⟩ := ih (i + 1) (prod.take i ++ List.zipWith (· + ·) ((prod.drop i).take c.length)
      (c.map (· * d)) ++ prod.drop (i + c.length)) (by rw [s1]; omega)
    refine ⟨r1.trans s1, r2.trans ?_⟩
    rw [s2, polyVal_cons, mul_add, smul_add, mul_smul_comm, smul_smul, pow_succ, add_assoc]

theorem mulPiece_spec (c other : List R) (hc : 1 ≤ c.length) (x : K) :
    (mulPiece c other).length = c.length + other.length - 1 ∧
      polyVal (mulPiece c other) x = polyVal c x * polyVal other x := by
  unfold mulPiece
  have := mulPiece_aux c x other 0 (List.replicate (c.length + other.length - 1) 0) (by simp; omega)
  simp only [List.length_replicate, polyVal_replicate_zero, pow_zero, one_smul, zero_add] at this
  exact this

theorem mulPiece_WF {a b : PwPoly K R} (ha : WF a) (hb : WF b) (hl : b.c.length = a.c.length) :
    WF (⟨a.xk, a.n + b.n - 1, List.zipWith mulPiece a.c b.c⟩ : PwPoly K R) := by
  have h1 := ha.pos
  have h2 := hb.pos
  refine ⟨ha.ne, ha.inc, by simp [hl, ha.len], by simp only; omega, ?_⟩
  intro l hlm
  obtain ⟨i, hi, rfl⟩ := List.getElem_of_mem hlm
  simp only [List.length_zipWith] at hi
  rw [List.getElem_zipWith, (mulPiece_spec (K := K) _ _ _ 0).1, ha.row _ (List.getElem_mem _),
    hb.row _ (List.getElem_mem _)]
  rw [ha.row _ (List.getElem_mem _)]; exact h1

theorem mulPiece_call {a b : PwPoly K R} (ha : WF a) (hb : WF b) (hx : b.xk = a.xk) (x : K) :
    (⟨a.xk, a.n + b.n - 1, List.zipWith mulPiece a.c b.c⟩ : PwPoly K R).call x =
      a.call x * b.call x := by
  have hl : b.c.length = a.c.length := by rw [ha.len, hb.len, hx]
  rw [call_eq (mulPiece_WF ha hb hl), call_eq ha, call_eq hb, hx]
  unfold pieceVal piece
  have h1 := searchsorted_le a.xk x
  have h2 := ha.len
  simp only [hx]
  rw [List.getD_eq_getElem _ _ (by simp; omega), List.getElem_zipWith,
    List.getD_eq_getElem _ _ (by omega), List.getD_eq_getElem _ _ (by omega),
    (mulPiece_spec _ _ _ _).2]
  rw [ha.row _ (List.getElem_mem _)]; exact ha.pos

end product
end Npplus
