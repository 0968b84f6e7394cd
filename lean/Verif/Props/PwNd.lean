import Verif.Model.PwNd
import Verif.Props.PolyNd
import Verif.Props.PwArith

/-!
# Property C107: the operators and methods act component by component, with broadcasting
-/

set_option linter.unusedSectionVars false
namespace Npplus
open Spec NdArr
open PwPoly (mkXk0 diffs defaultTol)

namespace NdAux

/-! ### shapes -/

theorem rdim_snoc (s : List ℕ) (L k : ℕ) : rdim (s ++ [L]) k = if k = 0 then L else rdim s (k - 1) := by
  unfold rdim
  rw [List.reverse_append]
  rcases k with _ | k <;> simp

theorem rdim_cons' (N : ℕ) (s : List ℕ) (k : ℕ) : rdim (N :: s) k = if k = s.length then N else rdim s k := by
  by_cases h : k = s.length
  · subst h
    unfold rdim
    rw [List.reverse_cons, List.getD_append_right _ _ _ _ (by simp)]
    simp
  · rw [if_neg h]
    rcases Nat.lt_or_ge k s.length with h' | h'
    · exact rdim_cons_pn N h'
    · rw [rdim_of_ge (by simp; omega), rdim_of_ge h']

theorem rdim_ones (j : ℕ) (s : List ℕ) (k : ℕ) : rdim (List.replicate j 1 ++ s) k = rdim s k := by
  induction j with
  | zero => simp
  | succ j ih =>
    rw [List.replicate_succ, List.cons_append, rdim_cons']
    split
    · rename_i h
      rw [rdim_of_ge (by rw [h]; simp)]
    · exact ih

theorem common_refl (s : List ℕ) : Spec.Common [s, s] s := ⟨by simp, ⟨s, by simp, rfl⟩, by simp, fun k => ⟨s, by simp, rfl⟩⟩

theorem common_snoc {s t r : List ℕ} (h : Spec.Common [s, t] r) (L : ℕ) : Spec.Common [s ++ [L], t ++ [L]] (r ++ [L]) := by
  have h1 := h.len s (by simp)
  have h2 := h.len t (by simp)
  refine ⟨by simp [h1, h2], ?_, fun u hu k => ?_, fun k => ?_⟩
  · obtain ⟨u, hu, e⟩ := h.maxlen
    exact ⟨u ++ [L], by rcases List.mem_pair.1 hu with rfl | rfl <;> simp, by simp [e]⟩
  · rcases List.mem_pair.1 hu with rfl | rfl <;> rw [rdim_snoc, rdim_snoc] <;> split
    · exact .inl rfl
    · exact h.fits s (by simp) _
    · exact .inl rfl
    · exact h.fits t (by simp) _
  · obtain ⟨u, hu, e⟩ := h.hit (k - 1)
    refine ⟨u ++ [L], by rcases List.mem_pair.1 hu with rfl | rfl <;> simp, ?_⟩
    rw [rdim_snoc, rdim_snoc, e]

theorem common_cons2 {s t r : List ℕ} (h : Spec.Common [s, t] r) (h1 : s.length = r.length) (h2 : t.length = r.length) (N : ℕ) :
    Spec.Common [N :: s, N :: t] (N :: r) ∧ Spec.Common [N :: s, t] (N :: r) := by
  have key : ∀ k, rdim (N :: s) k = rdim (N :: r) k ∨ rdim (N :: s) k = 1 := by
    intro k
    rw [rdim_cons', rdim_cons', h1]
    split
    · exact .inl rfl
    · exact h.fits s (by simp) k
  constructor
  · refine ⟨by simp [h1, h2], ⟨N :: s, by simp, by simp [h1]⟩, fun u hu k => ?_, fun k => ?_⟩
    · rcases List.mem_pair.1 hu with rfl | rfl
      · exact key k
      · rw [rdim_cons', rdim_cons', h2]
        split
        · exact .inl rfl
        · exact h.fits t (by simp) k
    · obtain ⟨u, hu, e⟩ := h.hit k
      refine ⟨N :: u, by rcases List.mem_pair.1 hu with rfl | rfl <;> simp, ?_⟩
      rw [rdim_cons', rdim_cons', e]
      rcases List.mem_pair.1 hu with rfl | rfl <;> simp [h1, h2]
  · refine ⟨by simp [h1, h2], ⟨N :: s, by simp, by simp [h1]⟩, fun u hu k => ?_, fun k => ?_⟩
    · rcases List.mem_pair.1 hu with rfl | rfl
      · exact key k
      · rw [rdim_cons']
        split
        · exact .inr (rdim_of_ge (by omega))
        · exact h.fits _ (by simp) k
    · by_cases hk : k = r.length
      · exact ⟨N :: s, by simp, by rw [rdim_cons', rdim_cons', h1, if_pos hk, if_pos hk]⟩
      · obtain ⟨u, hu, e⟩ := h.hit k
        rcases List.mem_pair.1 hu with rfl | rfl
        · exact ⟨N :: u, by simp, by rw [rdim_cons', rdim_cons', h1, if_neg hk, if_neg hk, e]⟩
        · exact ⟨u, by simp, by rw [rdim_cons', if_neg hk, e]⟩

theorem common_ones {s t r : List ℕ} (h : Spec.Common [s, t] r) :
    Spec.Common [List.replicate (t.length - s.length) 1 ++ s, List.replicate (s.length - t.length) 1 ++ t] r ∧
    (List.replicate (t.length - s.length) 1 ++ s).length = r.length ∧ (List.replicate (s.length - t.length) 1 ++ t).length = r.length := by
  have h1 := h.len s (by simp)
  have h2 := h.len t (by simp)
  have hl : r.length = max s.length t.length := by
    obtain ⟨u, hu, e⟩ := h.maxlen
    rcases List.mem_pair.1 hu with rfl | rfl <;> omega
  have e1 : (List.replicate (t.length - s.length) 1 ++ s).length = r.length := by simp; omega
  have e2 : (List.replicate (s.length - t.length) 1 ++ t).length = r.length := by simp; omega
  refine ⟨⟨fun u hu => ?_, ⟨_, List.mem_cons_self, e1⟩, fun u hu k => ?_, fun k => ?_⟩, e1, e2⟩
  · rcases List.mem_pair.1 hu with rfl | rfl <;> omega
  · rcases List.mem_pair.1 hu with rfl | rfl <;> rw [rdim_ones]
    · exact h.fits s (by simp) k
    · exact h.fits t (by simp) k
  · obtain ⟨u, hu, e⟩ := h.hit k
    rcases List.mem_pair.1 hu with rfl | rfl
    · exact ⟨_, List.mem_cons_self, by rw [rdim_ones, e]⟩
    · exact ⟨_, List.mem_cons_of_mem _ List.mem_cons_self, by rw [rdim_ones, e]⟩

/-- shapes which do not broadcast do not broadcast as coefficient arrays either -/
theorem not_common {s t : List ℕ} (h : ¬ ∃ r, Spec.Common [s, t] r) (j j' L : ℕ) (A B : List ℕ) (hA : A.length ≤ 1) (hB : B.length ≤ 1)
    (hj : j + s.length = j' + t.length) :
    ¬ ∃ r, Spec.Common [A ++ (List.replicate j 1 ++ s ++ [L]), B ++ (List.replicate j' 1 ++ t ++ [L])] r := by
  rintro ⟨r, hr⟩
  cases hc : bcastShape s t with
  | ok r => exact h ⟨r, bcastShape_ok hc⟩
  | error e =>
    obtain ⟨-, k, h1, h2, h3⟩ := bcastShape_err hc
    have hs : k < s.length := by by_contra hh; exact h2 (rdim_of_ge (by omega))
    have ht : k < t.length := by by_contra hh; exact h3 (rdim_of_ge (by omega))
    have key : ∀ (C : List ℕ) (i : ℕ) (u : List ℕ), C.length ≤ 1 → k < u.length → rdim (C ++ (List.replicate i 1 ++ u ++ [L])) (k + 1) = rdim u k := by
      intro C i u hC hu
      have e : rdim (List.replicate i 1 ++ u ++ [L]) (k + 1) = rdim u k := by rw [rdim_snoc, if_neg (by omega), rdim_ones]; rfl
      match C, hC with
      | [], _ => exact e
      | [a], _ =>
        rw [List.singleton_append, rdim_cons', if_neg (by simp; omega), e]
    have f1 := hr.fits _ List.mem_cons_self (k + 1)
    have f2 := hr.fits _ (List.mem_cons_of_mem _ List.mem_cons_self) (k + 1)
    rw [key _ _ _ hA hs] at f1
    rw [key _ _ _ hB ht] at f2
    omega

/-! ### indices -/

theorem bcIdx_big {N : ℕ} {V r : List ℕ} {L k i : ℕ} (hl : V.length = r.length) (hk : k < N) (hi : i < L) :
    bcIdx (N :: (V ++ [L])) (k :: (r ++ [i])) = k :: (bcIdx V r ++ [i]) := by
  unfold bcIdx
  simp only [List.length_cons, List.length_append, List.length_nil, hl, Nat.sub_self, List.drop_zero, List.zipWith_cons_cons]
  rw [List.zipWith_append hl]
  simp only [List.zipWith_cons_cons, List.zipWith_nil_left, List.cons.injEq, List.append_cancel_left_eq, and_true]
  constructor
  · split <;> omega
  · split <;> omega

theorem bcIdx_row {V r : List ℕ} {L k i : ℕ} (hl : V.length = r.length) (hi : i < L) :
    bcIdx (V ++ [L]) (k :: (r ++ [i])) = bcIdx V r ++ [i] := by
  unfold bcIdx
  simp only [List.length_cons, List.length_append, List.length_nil, hl, List.drop_succ_cons, Nat.sub_self, List.drop_zero,
    Nat.add_sub_cancel_left]
  rw [List.zipWith_append hl]
  simp only [List.zipWith_cons_cons, List.zipWith_nil_left, List.append_cancel_left_eq, List.cons.injEq, and_true]
  split <;> omega

theorem bcIdx_ones {V r : List ℕ} {j : ℕ} (hl : j + V.length = r.length) :
    bcIdx (List.replicate j 1 ++ V) r = List.replicate j 0 ++ bcIdx V r := by
  unfold bcIdx
  have e : r.length - V.length = j := by omega
  have e2 : r.length - (List.replicate j 1 ++ V).length = 0 := by simp; omega
  rw [e, e2, List.drop_zero]
  conv_lhs => rw [← List.take_append_drop j r]
  rw [List.zipWith_append (by simp; omega)]
  congr 1
  refine List.ext_getElem (by simp; omega) fun i h1 h2 => ?_
  simp

theorem valid_ones {V v : List ℕ} (h : ValidIdx V v) (j : ℕ) : ValidIdx (List.replicate j 1 ++ V) (List.replicate j 0 ++ v) :=
  validIdx_append_nd ⟨by simp, fun k hk => by
    have hk' : k < j := by simpa using hk
    rw [List.getD_eq_getElem _ _ (by simpa using hk'), List.getD_eq_getElem _ _ (by simpa using hk')]
    simp⟩ h

/-! ### components -/

variable {K : Type} [Field K] [LinearOrder K] [IsStrictOrderedRing K]
variable {p q : NdPw K} {n m : ℕ} {V W R : List ℕ}

theorem comp_getD (p : NdPw K) (v : List ℕ) {i : ℕ} (hi : i ≤ p.xk.length) :
    (p.comp v).c.getD i [] = (List.range (p.c.shape.headD 0)).map fun j => p.c.get (j :: (v ++ [i])) := by
  unfold NdPw.comp
  rw [List.getD_eq_getElem _ _ (by simp; omega)]
  simp

/-- a piecewise polynomial is the component when its coefficients are -/
theorem eq_comp {r : NdPw K} {v : List ℕ} {P : PwPoly K K} (h1 : P.xk = r.xk) (h2 : P.n = r.c.shape.headD 0) (h3 : P.c.length = r.xk.length + 1)
    (h4 : ∀ i ≤ r.xk.length, (P.c.getD i []).length = r.c.shape.headD 0 ∧
      ∀ k < r.c.shape.headD 0, (P.c.getD i []).getD k 0 = r.c.get (k :: (v ++ [i]))) : P = r.comp v := by
  obtain ⟨xk, n, c⟩ := P
  unfold NdPw.comp
  simp only at h1 h2 h3 h4
  simp only [PwPoly.mk.injEq]
  refine ⟨h1, h2, List.ext_getElem (by simp [h3]) fun i a b => ?_⟩
  rw [List.getElem_map, List.getElem_range]
  have h5 := h4 i (by omega)
  rw [List.getD_eq_getElem c _ a] at h5
  refine List.ext_getElem (by simp [h5.1]) fun k a' b' => ?_
  have := h5.2 k (by simpa using b')
  rw [List.getD_eq_getElem _ _ a'] at this
  rw [this]
  simp

theorem coefs_takeLast {c : NdArr K} {L : ℕ} (hsh : c.shape = n :: (V ++ [L])) {ix : NdArr ℕ} {v i : List ℕ} (hv : ValidIdx V v)
    (hi : ValidIdx ix.shape i) : coefsAt (c.takeLast ix) (v ++ i) = (List.range n).map fun j => c.get (j :: (v ++ [ix.get i])) := by
  have hs : (c.takeLast ix).shape = n :: (V ++ ix.shape) := by
    show c.shape.dropLast ++ ix.shape = _
    rw [hsh]
    simp [List.dropLast_cons_of_ne_nil, List.dropLast_append_of_ne_nil]
  unfold coefsAt
  rw [hs]
  simp only [List.headD_cons, List.tail_cons]
  rw [bcIdx_self (validIdx_append_nd hv hi)]
  refine List.map_congr_left fun j _ => ?_
  show c.get _ = _
  have hl : (n :: (V ++ [L])).length - 1 = (j :: v).length := by simp [hv.1]
  rw [hsh, hl, show j :: (v ++ i) = (j :: v) ++ i from rfl, List.take_left, List.drop_left]
  rfl

theorem valid1 {L i : ℕ} (h : i < L) : ValidIdx [L] [i] := ⟨rfl, fun k hk => by
  obtain rfl : k = 0 := by simpa using hk
  simpa using h⟩

theorem addknotsRaw_nd (hp : NdWF p n V) {u : List K} (hu : Knots u) :
    ∃ r, p.addknotsRaw u = .ok r ∧ r.xk = u ∧ NdWF r n V ∧ ∀ v, ValidIdx V v → (p.comp v).addknotsRaw u = r.comp v := by
  have hu1 : 1 ≤ u.length := List.length_pos_iff.mpr hu.ne
  set L : List ℕ := [0] ++ (List.zipWith (fun a b => (1/2 : K) * (b + a)) u u.tail).map (searchsorted p.xk) ++ [p.xk.length] with hL
  have lL : L.length = u.length + 1 := by simp [hL]; omega
  have l0 : (mkXk0 u).length = u.length + 1 := mkXk0_length hu.ne
  have LL : ∀ i (h : i < L.length), L[i] ≤ p.xk.length := by
    intro i h
    have : ∀ z ∈ L, z ≤ p.xk.length := by
      intro z this
      rw [hL] at this
      simp only [List.mem_append, List.mem_cons, List.not_mem_nil, or_false, List.mem_map] at this
      rcases this with (h | ⟨_, -, h⟩) | h
      · rw [h]; omega
      · rw [← h]; exact searchsorted_le _ _
      · rw [h]
    exact this _ (List.getElem_mem _)
  set x : NdArr K := ⟨[u.length + 1], fun idx => bget (NdArr.of1 (mkXk0 u)) idx - bget ((NdArr.of1 L).map fun i => (mkXk0 p.xk).getD i 0) idx⟩ with hx
  have e1 : (NdArr.of1 (mkXk0 u)).zip (· - ·) ((NdArr.of1 L).map fun i => (mkXk0 p.xk).getD i 0) = .ok x :=
    zip_ok_of (by
      show Spec.Common [[(mkXk0 u).length], [L.length]] _
      rw [l0, lL]
      exact common_refl _)
  have hsh : (p.c.takeLast (NdArr.of1 L)).shape = n :: (V ++ [u.length + 1]) := by
    show p.c.shape.dropLast ++ [L.length] = _
    rw [hp.shape, lL]
    simp [List.dropLast_cons_of_ne_nil, List.dropLast_append_of_ne_nil]
  have hn : (p.c.takeLast (NdArr.of1 L)).shape.headD 0 ≠ 0 := by
    have := hp.pos
    rw [hsh]
    simp
    omega
  have hn' : p.c.shape.headD 0 = n := by rw [hp.shape]; rfl
  obtain ⟨r, h1, h2, h3⟩ := polyddxNd_ok (c := p.c.takeLast (NdArr.of1 L)) (x := x) hn (r := V ++ [u.length + 1]) (by
    rw [hsh]
    exact common_append_pn V _) (n - 1) false
  have hpos := hp.pos
  have hsr : r.shape = n :: (V ++ [u.length + 1]) := by rw [h2]; congr 1; omega
  refine ⟨⟨u, r⟩, ?_, rfl, ⟨hu.ne, hu.inc, hp.pos, hsr⟩, fun v hv => ?_⟩
  · unfold NdPw.addknotsRaw
    simp only [← hL, e1, bind, Except.bind, hn', h1]
    rfl
  · have cw := (comp_WF_pn hp v).1
    refine eq_comp rfl (by simp [PwPoly.addknotsRaw, NdPw.comp, hp.shape, hsr]) (PwPoly.addknotsRaw_length hu.ne) fun i hi => ?_
    have hi : i < u.length + 1 := Nat.lt_succ_of_le hi
    have hiL : i < L.length := by omega
    have ec : (p.comp v).c.getD L[i] [] = (List.range n).map fun j => p.c.get (j :: (v ++ [L[i]])) := by
      rw [comp_getD p v (LL i hiL), hn']
    have e : ((p.comp v).addknotsRaw u).c.getD i [] = polyddx ((List.range n).map fun j => p.c.get (j :: (v ++ [L[i]]))) ((mkXk0 u)[i] - (mkXk0 p.xk).getD L[i] 0) (n - 1) := by
      rw [← ec]
      show (List.zipWith (fun i x0 => polyddx ((p.comp v).c.getD i []) (x0 - (mkXk0 p.xk).getD i 0) ((p.comp v).n - 1)) L (mkXk0 u)).getD i [] = _
      rw [List.getD_eq_getElem _ _ (by simp; omega), List.getElem_zipWith, (comp_WF_pn hp v).2.1]
    have elen : (polyddx ((List.range n).map fun j => p.c.get (j :: (v ++ [L[i]]))) ((mkXk0 u)[i] - (mkXk0 p.xk).getD L[i] 0) (n - 1)).length = n := by
      rw [polyddx_eq _ _ _ (by simp; omega), length_tcList]
      omega
    refine ⟨by rw [e, elen, hsr]; rfl, fun k hk => ?_⟩
    have hk' : k < n := by rw [hsr] at hk; exact hk
    have hv1 : ValidIdx [u.length + 1] [i] := valid1 hi
    have := h3 (v ++ [i]) (validIdx_append_nd hv hv1) k (by omega)
    rw [e, this, if_neg (by simp), coefs_takeLast hp.shape hv (by show ValidIdx [L.length] [i]; rw [lL]; exact hv1)]
    have hb : bcIdx [u.length + 1] (v ++ [i]) = [i] := by
      unfold bcIdx
      rw [show (v ++ [i]).length - [u.length + 1].length = v.length by simp, List.drop_left]
      simp
      intro h; rw [h] at hu1; simp at hu1
    have gx : bget x (v ++ [i]) = (mkXk0 u)[i] - (mkXk0 p.xk).getD L[i] 0 := by
      unfold bget
      rw [show x.shape = [u.length + 1] from rfl, hb]
      show bget (NdArr.of1 (mkXk0 u)) [i] - bget ((NdArr.of1 L).map fun i => (mkXk0 p.xk).getD i 0) [i] = _
      rw [bget_self (a := NdArr.of1 (mkXk0 u)) (by show ValidIdx [(mkXk0 u).length] [i]; rw [l0]; exact hv1),
        bget_self (a := (NdArr.of1 L).map fun i => (mkXk0 p.xk).getD i 0) (by show ValidIdx [L.length] [i]; rw [lL]; exact hv1)]
      show (mkXk0 u).getD i 0 - (mkXk0 p.xk).getD (L.getD i 0) 0 = _
      rw [List.getD_eq_getElem _ _ (by omega), List.getD_eq_getElem L _ (by omega)]
    have gL : (NdArr.of1 L).get [i] = L[i] := by
      show L.getD i 0 = _
      rw [List.getD_eq_getElem L _ (by omega)]
    rw [gx, gL]

theorem padTo_nd (hp : NdWF p n V) {N : ℕ} (hN : n ≤ N) :
    NdWF (p.padTo (N - 1)) N V ∧ (p.padTo (N - 1)).xk = p.xk ∧ ∀ v, ValidIdx V v → (p.comp v).padTo (N - 1) = (p.padTo (N - 1)).comp v := by
  have hn' : p.c.shape.headD 0 = n := by rw [hp.shape]; rfl
  have hpos := hp.pos
  unfold NdPw.padTo
  rw [hn']
  by_cases h : n - 1 = N - 1
  · obtain rfl : n = N := by omega
    rw [if_neg (by simp)]
    refine ⟨hp, rfl, fun v _ => ?_⟩
    unfold PwPoly.padTo PwPoly.deg
    rw [(comp_WF_pn hp v).2.1, if_neg (by simp)]
  · rw [if_pos h]
    have hsh : (concatAx 0 p.c ⟨p.c.shape.set 0 (N - 1 - (n - 1)), fun _ => (0 : K)⟩).shape = N :: (V ++ [p.xk.length + 1]) := by
      show p.c.shape.set 0 (p.c.shape.getD 0 0 + (p.c.shape.set 0 (N - 1 - (n - 1))).getD 0 0) = _
      rw [hp.shape]
      simp only [List.set_cons_zero, List.getD_cons_zero, List.cons.injEq, and_true]
      omega
    refine ⟨⟨hp.ne, hp.inc, by omega, hsh⟩, rfl, fun v hv => ?_⟩
    have hc := comp_WF_pn hp v
    have e : (p.comp v).padTo (N - 1) = ⟨p.xk, N, (p.comp v).c.map fun l => l ++ List.replicate (N - n) 0⟩ := by
      unfold PwPoly.padTo PwPoly.deg
      rw [hc.2.1, if_pos h]
      rw [show N - 1 - (n - 1) = N - n by omega, show n + (N - n) = N by omega]
      rfl
    rw [e]
    refine eq_comp rfl (by rw [hsh]; rfl) (by rw [List.length_map]; exact hc.1.len) fun i hi => ?_
    have hi : i ≤ p.xk.length := hi
    have hl : (p.comp v).c.length = p.xk.length + 1 := hc.1.len
    have ei : ((p.comp v).c.map fun l => l ++ List.replicate (N - n) 0).getD i [] =
        ((List.range n).map fun j => p.c.get (j :: (v ++ [i]))) ++ List.replicate (N - n) 0 := by
      rw [List.getD_eq_getElem _ _ (by simp; omega), List.getElem_map, ← List.getD_eq_getElem _ [] (by omega), comp_getD p v hi, hn']
    simp only
    rw [ei]
    refine ⟨by rw [hsh]; simp; omega, fun k hk => ?_⟩
    show _ = if k < p.c.shape.getD 0 0 then p.c.get (k :: (v ++ [i])) else 0
    rw [hp.shape, List.getD_cons_zero]
    split
    · rename_i hk'
      rw [List.getD_append _ _ _ _ (by simpa using hk'), List.getD_eq_getElem _ _ (by simpa using hk')]
      simp
    · rw [List.getD_append_right _ _ _ _ (by simp; omega)]
      simp only [List.length_map, List.length_range]
      by_cases hk2 : k - n < N - n
      · rw [List.getD_eq_getElem _ _ (by simpa using hk2)]
        simp
      · exact List.getD_eq_default _ _ (by simpa using hk2)

theorem padAxes_nd (hp : NdWF p n V) (j : ℕ) : NdWF ⟨p.xk, p.c.padAxes j⟩ n (List.replicate j 1 ++ V) ∧
    ∀ v, (⟨p.xk, p.c.padAxes j⟩ : NdPw K).comp (List.replicate j 0 ++ v) = p.comp v := by
  have hsh : (p.c.padAxes j).shape = n :: (List.replicate j 1 ++ V ++ [p.xk.length + 1]) := by
    show p.c.shape.take 1 ++ List.replicate j 1 ++ p.c.shape.drop 1 = _
    rw [hp.shape]
    simp
  refine ⟨⟨hp.ne, hp.inc, hp.pos, hsh⟩, fun v => ?_⟩
  have hn' : p.c.shape.headD 0 = n := by rw [hp.shape]; rfl
  unfold NdPw.comp
  simp only [hsh, hn', List.headD_cons, PwPoly.mk.injEq, true_and]
  refine List.map_congr_left fun i _ => List.map_congr_left fun k _ => ?_
  show p.c.get _ = _
  congr 1
  rw [show k :: (List.replicate j 0 ++ v ++ [i]) = (k :: List.replicate j 0) ++ (v ++ [i]) by simp,
    List.drop_left' (by simp; omega)]
  simp

theorem padAxes_zero (a : NdArr K) : a.padAxes 0 = a := by
  obtain ⟨s, g⟩ := a
  unfold NdArr.padAxes
  simp only [List.replicate_zero, List.append_nil, Nat.add_zero, List.take_append_drop]

theorem sameAxes_eq (hp : NdWF p n V) (hq : NdWF q m W) :
    NdPw.sameAxes p q = (⟨p.xk, p.c.padAxes (W.length - V.length)⟩, ⟨q.xk, q.c.padAxes (V.length - W.length)⟩) := by
  unfold NdPw.sameAxes
  simp only [hp.shape, hq.shape, List.length_cons, List.length_append, List.length_nil]
  rcases lt_trichotomy V.length W.length with h | h | h
  · rw [if_pos (by omega), show V.length - W.length = 0 by omega, padAxes_zero]
    congr 3
    omega
  · rw [if_neg (by omega), if_neg (by omega), show V.length - W.length = 0 by omega, show W.length - V.length = 0 by omega, padAxes_zero, padAxes_zero]
  · rw [if_neg (by omega), if_pos (by omega), show W.length - V.length = 0 by omega, padAxes_zero]
    congr 3
    omega

theorem commonKnots_nd (hp : NdWF p n V) (hq : NdWF q m W) : ∃ a b, NdPw.commonKnots p q = .ok (a, b) ∧ NdWF a n V ∧ NdWF b m W ∧
    a.xk.length = b.xk.length ∧
    ∀ v w, ValidIdx V v → ValidIdx W w → PwPoly.commonKnots (p.comp v) (q.comp w) = .ok (a.comp v, b.comp w) := by
  have hx : ∀ v w, PwPoly.commonKnots (p.comp v) (q.comp w) = match PwPoly.allknotsGo (defaultTol K) (p.xk, false) [q.xk] with
    | .error e => .error e
    | .ok (u, true) => .ok ((p.comp v).addknotsRaw u, (q.comp w).addknotsRaw u)
    | .ok (_, false) => .ok (p.comp v, q.comp w) := fun _ _ => rfl
  rcases allknotsGo_one defaultTol_nonneg (⟨hp.ne, hp.inc⟩ : Knots p.xk) (⟨hq.ne, hq.inc⟩ : Knots q.xk) with ⟨h1, h2⟩ | ⟨u, h1, -, hu, -⟩
  · refine ⟨p, q, by unfold NdPw.commonKnots; rw [h1], hp, hq, ?_, fun v w _ _ => by rw [hx, h1]⟩
    rcases h2 with h2 | ⟨x, y, h2, h3, -⟩
    · rw [h2]
    · rw [h2, h3]; rfl
  · obtain ⟨a, a1, a2, a3, a4⟩ := addknotsRaw_nd hp hu
    obtain ⟨b, b1, b2, b3, b4⟩ := addknotsRaw_nd hq hu
    refine ⟨a, b, by unfold NdPw.commonKnots; rw [h1]; simp only [bind, Except.bind]; rw [a1]; simp only; rw [b1]; rfl, a3, b3, by rw [a2, b2], fun v w hv hw => ?_⟩
    rw [hx, h1, ← a4 v hv, ← b4 w hw]

/-- `_binary` on coefficient arrays and on components -/
theorem binary_nd (hp : NdWF p n V) (hq : NdWF q m W) (skip : Bool) : ∃ a b, NdPw.binary p q skip = .ok (a, b) ∧
    NdWF a (if skip then n else max n m) (List.replicate (W.length - V.length) 1 ++ V) ∧
    NdWF b (if skip then m else max n m) (List.replicate (V.length - W.length) 1 ++ W) ∧ a.xk.length = b.xk.length ∧
    ∀ v w, ValidIdx V v → ValidIdx W w → (if skip then PwPoly.commonKnots (p.comp v) (q.comp w) else PwPoly.binary (p.comp v) (q.comp w)) =
      .ok (a.comp (List.replicate (W.length - V.length) 0 ++ v), b.comp (List.replicate (V.length - W.length) 0 ++ w)) := by
  have main : ∀ {n' m' : ℕ} {p' q' : NdPw K}, NdWF p' n' V → NdWF q' m' W → ∃ a b,
      NdPw.commonKnots (NdPw.sameAxes p' q').1 (NdPw.sameAxes p' q').2 = .ok (a, b) ∧
      NdWF a n' (List.replicate (W.length - V.length) 1 ++ V) ∧ NdWF b m' (List.replicate (V.length - W.length) 1 ++ W) ∧ a.xk.length = b.xk.length ∧
      ∀ v w, ValidIdx V v → ValidIdx W w → PwPoly.commonKnots (p'.comp v) (q'.comp w) =
        .ok (a.comp (List.replicate (W.length - V.length) 0 ++ v), b.comp (List.replicate (V.length - W.length) 0 ++ w)) := by
    intro n' m' p' q' hp' hq'
    rw [sameAxes_eq hp' hq']
    obtain ⟨a1, a2⟩ := padAxes_nd hp' (W.length - V.length)
    obtain ⟨b1, b2⟩ := padAxes_nd hq' (V.length - W.length)
    obtain ⟨a, b, h1, h2, h3, h4, h5⟩ := commonKnots_nd a1 b1
    refine ⟨a, b, h1, h2, h3, h4, fun v w hv hw => ?_⟩
    rw [← h5 _ _ (valid_ones hv _) (valid_ones hw _), a2, b2]
  cases skip with
  | true =>
    obtain ⟨a, b, h⟩ := main hp hq
    exact ⟨a, b, h⟩
  | false =>
    have hn' : p.c.shape.headD 0 = n := by rw [hp.shape]; rfl
    have hm' : q.c.shape.headD 0 = m := by rw [hq.shape]; rfl
    have h1 := hp.pos
    have h2 := hq.pos
    have e : max (n - 1) (m - 1) = max n m - 1 := by omega
    obtain ⟨p1, p2, p3⟩ := padTo_nd hp (le_max_left n m)
    obtain ⟨q1, q2, q3⟩ := padTo_nd hq (le_max_right n m)
    obtain ⟨a, b, h3, h4, h5, h6, h7⟩ := main p1 q1
    refine ⟨a, b, ?_, h4, h5, h6, fun v w hv hw => ?_⟩
    · rw [← h3]
      unfold NdPw.binary
      simp only [hn', hm', e]
      rfl
    · rw [← h7 v w hv hw]
      simp only [Bool.false_eq_true, if_false]
      unfold PwPoly.binary PwPoly.deg
      rw [(comp_WF_pn hp v).2.1, (comp_WF_pn hq w).2.1]
      simp only [e]
      rw [p3 v hv, q3 w hw]

/-- an elementwise operation on the two coefficient arrays -/
theorem zip_nd {a b : NdPw K} {N : ℕ} (ha : NdWF a N (List.replicate (W.length - V.length) 1 ++ V))
    (hb : NdWF b N (List.replicate (V.length - W.length) 1 ++ W)) (hl : a.xk.length = b.xk.length) (f : K → K → K) :
    ((¬ ∃ R, Spec.Common [V, W] R) → a.c.zip f b.c = .error .valueError) ∧
    ∀ R, Spec.Common [V, W] R → ∃ c, a.c.zip f b.c = .ok c ∧ NdWF ⟨a.xk, c⟩ N R ∧ ∀ v, ValidIdx R v →
      (⟨a.xk, c⟩ : NdPw K).comp v = ⟨a.xk, N, List.zipWith (List.zipWith f) (a.comp (List.replicate (W.length - V.length) 0 ++ bcIdx V v)).c
        (b.comp (List.replicate (V.length - W.length) 0 ++ bcIdx W v)).c⟩ := by
  constructor
  · intro h
    refine zip_err ?_
    rw [ha.shape, hb.shape, hl]
    have := not_common h (W.length - V.length) (V.length - W.length) (b.xk.length + 1) [N] [N] (by simp) (by simp) (by omega)
    simpa using this
  · intro R hR
    obtain ⟨c1, c2, c3⟩ := common_ones hR
    have hC : Spec.Common [a.c.shape, b.c.shape] (N :: (R ++ [a.xk.length + 1])) := by
      rw [ha.shape, hb.shape, hl]
      exact (common_cons2 (common_snoc c1 _) (by simp only [List.length_append, List.length_cons, List.length_nil] at c2 ⊢; omega)
        (by simp only [List.length_append, List.length_cons, List.length_nil] at c3 ⊢; omega) N).1
    refine ⟨_, zip_ok_of hC, ⟨ha.ne, ha.inc, ha.pos, rfl⟩, fun v hv => ?_⟩
    have na : a.c.shape.headD 0 = N := by rw [ha.shape]; rfl
    have nb : b.c.shape.headD 0 = N := by rw [hb.shape]; rfl
    have hvl : v.length = R.length := hv.1
    unfold NdPw.comp
    simp only [List.headD_cons, na, nb, PwPoly.mk.injEq, true_and]
    rw [← hl, List.zipWith_map, List.zipWith_self]
    refine List.map_congr_left fun i hi => ?_
    rw [List.zipWith_map, List.zipWith_self]
    refine List.map_congr_left fun k hk => ?_
    have hi : i < a.xk.length + 1 := List.mem_range.1 hi
    have hk : k < N := List.mem_range.1 hk
    unfold bget
    rw [ha.shape, hb.shape, ← hl, bcIdx_big (by rw [c2, hvl]) hk hi, bcIdx_big (by rw [c3, hvl]) hk hi,
      bcIdx_ones (by simp at c2; omega), bcIdx_ones (by simp at c3; omega)]

end NdAux

open NdAux
variable {K : Type} [Field K] [LinearOrder K] [IsStrictOrderedRing K]
variable {p q : NdPw K} {n m : ℕ} {V W R : List ℕ}

/-- **C107** `p + q` for functions with components: ValueError when the shapes of the components do not broadcast; otherwise the components have
the broadcast shape, and each component of the sum is the sum of the components (whose values C16 describes). -/
theorem C107_add (hp : NdWF p n V) (hq : NdWF q m W) :
    ((¬ ∃ R, Spec.Common [V, W] R) → p.add q = .error .valueError) ∧
    ∀ R, Spec.Common [V, W] R → ∃ r, p.add q = .ok r ∧ NdWF r (max n m) R ∧ ∀ v, ValidIdx R v →
      (p.comp (bcIdx V v)).add (q.comp (bcIdx W v)) = .ok (r.comp v) := by
  obtain ⟨a, b, h1, h2, h3, h4, h5⟩ := binary_nd hp hq false
  obtain ⟨z1, z2⟩ := zip_nd h2 h3 h4 (· + ·)
  unfold NdPw.add
  rw [h1]
  refine ⟨fun h => by simp only [bind, Except.bind]; rw [z1 h], fun R hR => ?_⟩
  obtain ⟨c, e1, e2, e3⟩ := z2 R hR
  refine ⟨⟨a.xk, c⟩, by simp only [bind, Except.bind]; rw [e1]; rfl, e2, fun v hv => ?_⟩
  unfold PwPoly.add
  have := h5 (bcIdx V v) (bcIdx W v) (common_valid hR (by simp) hv) (common_valid hR (by simp) hv)
  simp only [Bool.false_eq_true, if_false] at this
  rw [this, e3 v hv]
  simp only [Except.map]
  rw [(comp_WF_pn h2 _).2.1, (comp_WF_pn h2 _).2.2]

/-- **C107** `p - q`, likewise. -/
theorem C107_sub (hp : NdWF p n V) (hq : NdWF q m W) :
    ((¬ ∃ R, Spec.Common [V, W] R) → p.sub q = .error .valueError) ∧
    ∀ R, Spec.Common [V, W] R → ∃ r, p.sub q = .ok r ∧ NdWF r (max n m) R ∧ ∀ v, ValidIdx R v →
      (p.comp (bcIdx V v)).sub (q.comp (bcIdx W v)) = .ok (r.comp v) := by
  obtain ⟨a, b, h1, h2, h3, h4, h5⟩ := binary_nd hp hq false
  obtain ⟨z1, z2⟩ := zip_nd h2 h3 h4 (· - ·)
  unfold NdPw.sub
  rw [h1]
  refine ⟨fun h => by simp only [bind, Except.bind]; rw [z1 h], fun R hR => ?_⟩
  obtain ⟨c, e1, e2, e3⟩ := z2 R hR
  refine ⟨⟨a.xk, c⟩, by simp only [bind, Except.bind]; rw [e1]; rfl, e2, fun v hv => ?_⟩
  unfold PwPoly.sub
  have := h5 (bcIdx V v) (bcIdx W v) (common_valid hR (by simp) hv) (common_valid hR (by simp) hv)
  simp only [Bool.false_eq_true, if_false] at this
  rw [this, e3 v hv]
  simp only [Except.map]
  rw [(comp_WF_pn h2 _).2.1, (comp_WF_pn h2 _).2.2]

/-- **C107** `-p` -/
theorem C107_neg (hp : NdWF p n V) : NdWF p.neg n V ∧ ∀ v, (p.comp v).neg = p.neg.comp v := by
  refine ⟨⟨hp.ne, hp.inc, hp.pos, hp.shape⟩, fun v => ?_⟩
  unfold PwPoly.neg NdPw.comp NdPw.neg
  simp [NdArr.map, Function.comp_def]

namespace NdAux

theorem deriv_step (hp : NdWF p n V) (hn : 2 ≤ n) :
    ∃ c, (p.c.sliceAx 0 1 (n - 1)).zip (· * ·) ⟨(n - 1) :: List.replicate (p.c.shape.length - 1) 1, fun idx => ((idx.headD 0 + 1 : ℕ) : K)⟩ = .ok c ∧
      NdWF ⟨p.xk, c⟩ (n - 1) V ∧ ∀ v, ValidIdx V v → (⟨p.xk, n - 1, (p.comp v).c.map (PwPoly.derivPiece K)⟩ : PwPoly K K) = (⟨p.xk, c⟩ : NdPw K).comp v := by
  have hn' : p.c.shape.headD 0 = n := by rw [hp.shape]; rfl
  have hs : (p.c.sliceAx 0 1 (n - 1)).shape = (n - 1) :: (V ++ [p.xk.length + 1]) := by
    show p.c.shape.set 0 (n - 1) = _
    rw [hp.shape]
    rfl
  have hs2 : (n - 1) :: List.replicate (p.c.shape.length - 1) 1 = (n - 1) :: List.replicate (V.length + 1) 1 := by
    rw [hp.shape]
    simp
  have hC : Spec.Common [(p.c.sliceAx 0 1 (n - 1)).shape, (n - 1) :: List.replicate (p.c.shape.length - 1) 1] ((n - 1) :: (V ++ [p.xk.length + 1])) := by
    rw [hs, hs2]
    refine (common_cons2 (r := V ++ [p.xk.length + 1]) ?_ rfl (by simp) (n - 1)).1
    refine ⟨by simp, ⟨V ++ [p.xk.length + 1], by simp, rfl⟩, fun u hu k => ?_, fun k => ⟨V ++ [p.xk.length + 1], by simp, rfl⟩⟩
    rcases List.mem_pair.1 hu with rfl | rfl
    · exact .inl rfl
    · right
      have := rdim_ones (V.length + 1) [] k
      rw [List.append_nil] at this
      rw [this]
      exact rdim_of_ge (by simp)
  refine ⟨_, zip_ok_of hC, ⟨hp.ne, hp.inc, by omega, rfl⟩, fun v hv => ?_⟩
  refine eq_comp rfl rfl (by rw [List.length_map]; exact (comp_WF_pn hp v).1.len) fun i hi => ?_
  have hi : i ≤ p.xk.length := hi
  have hl : (p.comp v).c.length = p.xk.length + 1 := (comp_WF_pn hp v).1.len
  have e : ((p.comp v).c.map (PwPoly.derivPiece K)).getD i [] = PwPoly.derivPiece K ((List.range n).map fun j => p.c.get (j :: (v ++ [i]))) := by
    rw [List.getD_eq_getElem _ _ (by simp; omega), List.getElem_map, ← List.getD_eq_getElem _ [] (by omega), comp_getD p v hi, hn']
  simp only [List.headD_cons]
  rw [e]
  refine ⟨by simp [PwPoly.derivPiece], fun k hk => ?_⟩
  rw [List.getD_eq_getElem _ _ (by simpa [PwPoly.derivPiece] using hk)]
  unfold PwPoly.derivPiece
  rw [List.getElem_mapIdx, smul_eq_mul, mul_comm]
  have hval : ValidIdx (V ++ [p.xk.length + 1]) (v ++ [i]) := validIdx_append_nd hv (valid1 (by omega))
  congr 1
  · have hvv : ValidIdx (p.c.sliceAx 0 1 (n - 1)).shape (k :: (v ++ [i])) := by
      rw [hs]
      exact validIdx_cons_iff.2 ⟨hk, hval⟩
    rw [bget_self hvv]
    simp [sliceAx]
  · have h2 : bcIdx ((n - 1) :: List.replicate (V.length + 1) 1) (k :: (v ++ [i])) = k :: bcIdx (List.replicate (V.length + 1) 1) (v ++ [i]) := by
      unfold bcIdx
      simp only [List.length_cons, List.length_append, List.length_nil, List.length_replicate, hv.1, Nat.sub_self, List.drop_zero, List.zipWith_cons_cons]
      congr 1
      split <;> omega
    unfold bget
    rw [hs2, h2]
    rfl

end NdAux

/-- **C107** `p.deriv(m)`: component by component; it never raises. -/
theorem C107_deriv (hp : NdWF p n V) (m : ℕ) : ∃ r, p.deriv m = .ok r ∧ NdWF r (max (n - m) 1) V ∧ r.xk = p.xk ∧
    ∀ v, ValidIdx V v → (p.comp v).deriv m = r.comp v := by
  induction m generalizing p n with
  | zero =>
    refine ⟨p, rfl, ?_, rfl, fun v _ => rfl⟩
    rw [show max (n - 0) 1 = n by have := hp.pos; omega]
    exact hp
  | succ m ih =>
    have hn' : p.c.shape.headD 0 = n := by rw [hp.shape]; rfl
    by_cases h2 : n < 2
    · obtain rfl : n = 1 := by have := hp.pos; omega
      refine ⟨⟨p.xk, p.c.map fun _ => 0⟩, ?_, ?_, rfl, fun v hv => ?_⟩
      · unfold NdPw.deriv NdPw.derivLoop
        simp only [hn', h2, if_true]
        rfl
      · rw [show max (1 - (m + 1)) 1 = 1 by omega]
        exact ⟨hp.ne, hp.inc, hp.pos, hp.shape⟩
      · unfold PwPoly.deriv PwPoly.derivLoop
        rw [(comp_WF_pn hp v).2.1]
        simp only [h2, if_true]
        unfold NdPw.comp
        simp only [NdArr.map, hn', List.map_map, Function.comp_def]
    · obtain ⟨c, h1, h3, h4⟩ := deriv_step hp (by omega)
      obtain ⟨r, h5, h6, h7, h8⟩ := ih h3
      refine ⟨r, ?_, by rw [show max (n - (m + 1)) 1 = max (n - 1 - m) 1 by omega]; exact h6, h7, fun v hv => ?_⟩
      · rw [← h5]
        unfold NdPw.deriv
        conv_lhs => unfold NdPw.derivLoop
        simp only [hn', h2, if_false]
        rw [h1]
        rfl
      · rw [← h8 v hv, ← h4 v hv]
        unfold PwPoly.deriv
        conv_lhs => unfold PwPoly.derivLoop
        rw [(comp_WF_pn hp v).2.1]
        simp only [h2, if_false]
        rfl

namespace NdAux

theorem length_polyddx_nd (l : List K) (x : K) (d : ℕ) : (polyddx l x d).length = d + 1 := by
  unfold polyddx
  have h0 : (polyddxInit l x d).length = d + 1 := by
    unfold polyddxInit
    split <;> simp_all
  have : ∀ (L : List K) (l : List K), l.length = d + 1 → (L.foldl (polyddxStep x d) l).length = d + 1 := by
    intro L
    induction L with
    | nil => exact fun l hl => hl
    | cons a L ih => exact fun l hl => ih _ (polyddxStep_getD _ hl _ (Nat.zero_le d)).1
  exact this _ _ h0

theorem sliceLast_shape {c : NdArr K} {L : ℕ} (h : c.shape = n :: (V ++ [L])) (lo len : ℕ) : (c.sliceLast lo len).shape = n :: (V ++ [len]) := by
  show c.shape.set (c.shape.length - 1) len = _
  rw [h, show (n :: (V ++ [L])).length - 1 = V.length + 1 by simp, List.set_cons_succ, List.set_append_right _ _ le_rfl]
  simp

theorem sliceLast_get {c : NdArr K} {L : ℕ} (h : c.shape = n :: (V ++ [L])) (lo len k i : ℕ) {v : List ℕ} (hv : v.length = V.length) :
    (c.sliceLast lo len).get (k :: (v ++ [i])) = c.get (k :: (v ++ [i + lo])) := by
  show c.get ((k :: (v ++ [i])).set (c.shape.length - 1) ((k :: (v ++ [i])).getD (c.shape.length - 1) 0 + lo)) = _
  rw [h, show (n :: (V ++ [L])).length - 1 = v.length + 1 by simp [hv], List.set_cons_succ, List.getD_cons_succ, List.set_append_right _ _ le_rfl,
    List.getD_append_right _ _ _ _ le_rfl]
  simp

theorem jumps_ok (hp : NdWF p n V) (d : ℕ) : ∃ cm, polyddxNd (p.c.sliceLast 0 p.xk.length) (NdArr.of1 (diffs (mkXk0 p.xk))) d false = .ok cm ∧
    cm.shape = (d + 1) :: (V ++ [p.xk.length]) ∧ ∀ v, ValidIdx V v → ∀ i < p.xk.length, ∀ k ≤ d, cm.get (k :: (v ++ [i])) =
      (polyddx ((p.comp v).c.getD i []) ((diffs (mkXk0 p.xk)).getD i 0) d).getD k 0 := by
  have hld : (diffs (mkXk0 p.xk)).length = p.xk.length := by
    rw [PwPoly.length_diffs, mkXk0_length hp.ne]
    omega
  have hsh := sliceLast_shape hp.shape 0 p.xk.length
  have hn' : p.c.shape.headD 0 = n := by rw [hp.shape]; rfl
  obtain ⟨cm, h1, h2, h3⟩ := polyddxNd_ok (c := p.c.sliceLast 0 p.xk.length) (x := NdArr.of1 (diffs (mkXk0 p.xk)))
    (by have := hp.pos; rw [hsh]; simp; omega) (r := V ++ [p.xk.length]) (by
      rw [hsh]
      show Spec.Common [V ++ [p.xk.length], [(diffs (mkXk0 p.xk)).length]] _
      rw [hld]
      exact common_append_pn V _) d false
  refine ⟨cm, h1, h2, fun v hv i hi k hk => ?_⟩
  have hval : ValidIdx (V ++ [p.xk.length]) (v ++ [i]) := validIdx_append_nd hv (valid1 hi)
  rw [h3 (v ++ [i]) hval k hk, if_neg (by simp), comp_getD p v hi.le, hn']
  have e1 : coefsAt (p.c.sliceLast 0 p.xk.length) (v ++ [i]) = (List.range n).map fun j => p.c.get (j :: (v ++ [i])) := by
    unfold coefsAt
    rw [hsh]
    simp only [List.headD_cons, List.tail_cons]
    rw [bcIdx_self hval]
    refine List.map_congr_left fun j _ => ?_
    rw [sliceLast_get hp.shape _ _ _ _ hv.1]
    rfl
  have e2 : bget (NdArr.of1 (diffs (mkXk0 p.xk))) (v ++ [i]) = (diffs (mkXk0 p.xk)).getD i 0 := by
    unfold bget
    rw [show (NdArr.of1 (diffs (mkXk0 p.xk))).shape = [(diffs (mkXk0 p.xk)).length] from rfl, hld]
    have : bcIdx [p.xk.length] (v ++ [i]) = [i] := by
      unfold bcIdx
      rw [show (v ++ [i]).length - [p.xk.length].length = v.length by simp, List.drop_left]
      simp
      omega
    rw [this]
    rfl
  rw [e1, e2]

end NdAux

/-- **C107** `p.jumps(n)`: an array with the order first, the components, and the knots last; each element is that of the component.
It raises (ValueError) for the orders for which the component would. -/
theorem C107_jumps (hp : NdWF p n V) (d : Option ℕ) :
    (n < d.getD (n - 1) + 1 ∧ n ≠ 1 → p.jumps d = .error .valueError) ∧
    (¬ (n < d.getD (n - 1) + 1 ∧ n ≠ 1) → ∃ r, p.jumps d = .ok r ∧ r.shape = (d.getD (n - 1) + 1) :: (V ++ [p.xk.length]) ∧
      ∀ v, ValidIdx V v → ∃ l, (p.comp v).jumps d = .ok l ∧ ∀ i < p.xk.length, ∀ k ≤ d.getD (n - 1),
        r.get (k :: (v ++ [i])) = (l.getD i []).getD k 0) := by
  have hn' : p.c.shape.headD 0 = n := by rw [hp.shape]; rfl
  have hpos := hp.pos
  obtain ⟨cm, h1, h2, h3⟩ := jumps_ok hp (d.getD (n - 1))
  set D := d.getD (n - 1) with hD
  have hs : ((p.c.sliceLast 1 p.xk.length).sliceAx 0 0 (min (1 + D) n)).shape = min (1 + D) n :: (V ++ [p.xk.length]) := by
    show (p.c.sliceLast 1 p.xk.length).shape.set 0 _ = _
    rw [sliceLast_shape hp.shape]
    rfl
  have hE : p.jumps d = ((p.c.sliceLast 1 p.xk.length).sliceAx 0 0 (min (1 + D) n)).zip (· - ·) cm := by
    unfold NdPw.jumps
    simp only [hn', ← hD, h1, bind, Except.bind]
  constructor
  · rintro ⟨h4, h5⟩
    rw [hE]
    refine zip_err ?_
    rintro ⟨r, hr⟩
    rw [hs, h2] at hr
    have f1 := hr.fits _ List.mem_cons_self (V.length + 1)
    have f2 := hr.fits _ (List.mem_cons_of_mem _ List.mem_cons_self) (V.length + 1)
    rw [rdim_cons', if_pos (by simp)] at f1 f2
    omega
  · intro h
    have hC : Spec.Common [min (1 + D) n :: (V ++ [p.xk.length]), cm.shape] ((D + 1) :: (V ++ [p.xk.length])) := by
      rw [h2]
      refine ⟨by simp, ⟨(D + 1) :: (V ++ [p.xk.length]), by simp, rfl⟩, fun u hu k => ?_, fun k => ⟨(D + 1) :: (V ++ [p.xk.length]), by simp, rfl⟩⟩
      rcases List.mem_pair.1 hu with rfl | rfl
      · rw [rdim_cons', rdim_cons']
        split
        · omega
        · exact .inl rfl
      · exact .inl rfl
    refine ⟨_, by rw [hE]; exact zip_ok_of (by rw [hs]; exact hC), rfl, fun v hv => ?_⟩
    obtain ⟨cw, cn, cx⟩ := comp_WF_pn hp v
    have hlen : (p.comp v).c.length = p.xk.length + 1 := cw.len
    have hld : (diffs (mkXk0 p.xk)).length = p.xk.length := by
      rw [PwPoly.length_diffs, mkXk0_length hp.ne]
      omega
    refine ⟨_, by unfold PwPoly.jumps; rw [cn, if_neg h], fun i hi k hk => ?_⟩
    have hval : ValidIdx (V ++ [p.xk.length]) (v ++ [i]) := validIdx_append_nd hv (valid1 hi)
    rw [← hD]
    have hxk : (p.comp v).xk0 = mkXk0 p.xk := rfl
    rw [hxk, List.getD_eq_getElem (List.zipWith _ _ _) _ (by simp; omega), List.getElem_zipWith, List.getElem_zipWith]
    have hpl : ((p.comp v).c.getD i []).length = n := by
      rw [comp_getD p v hi.le, hn']
      simp
    have hpd : (polyddx ((p.comp v).c.getD i []) ((diffs (mkXk0 p.xk)).getD i 0) D).length = D + 1 := by
      exact length_polyddx_nd _ _ _
    have ea : (p.comp v).c.dropLast[i]'(by simp; omega) = (p.comp v).c.getD i [] := by
      rw [List.getElem_dropLast, ← List.getD_eq_getElem _ [] (by omega)]
    have eb : (diffs (mkXk0 p.xk))[i]'(by omega) = (diffs (mkXk0 p.xk)).getD i 0 := by rw [← List.getD_eq_getElem _ 0 (by omega)]
    have ec : ((p.comp v).c.drop 1)[i]'(by simp; omega) = (List.range n).map fun j => p.c.get (j :: (v ++ [i + 1])) := by
      rw [List.getElem_drop, ← List.getD_eq_getElem _ [] (by omega), Nat.add_comm, comp_getD p v (by omega), hn']
    rw [ea, eb, ec, List.getD_eq_getElem (List.mapIdx _ _) _ (by simp only [List.length_mapIdx]; rw [hpd]; omega), List.getElem_mapIdx,
      ← List.getD_eq_getElem _ 0 (by rw [hpd]; omega), ← h3 v hv i hi k hk]
    show bget _ _ - bget _ _ = _
    congr 1
    · unfold bget
      rw [hs]
      have hb : bcIdx (min (1 + D) n :: (V ++ [p.xk.length])) (k :: (v ++ [i])) = (if min (1 + D) n = 1 then 0 else k) :: (v ++ [i]) := by
        have := bcIdx_self hval
        unfold bcIdx at this ⊢
        simp only [List.length_append, List.length_cons, List.length_nil, hv.1, Nat.sub_self, List.drop_zero] at this ⊢
        rw [List.zipWith_cons_cons, this]
      rw [hb]
      have hg : ∀ j, ((p.c.sliceLast 1 p.xk.length).sliceAx 0 0 (min (1 + D) n)).get (j :: (v ++ [i])) = p.c.get (j :: (v ++ [i + 1])) := by
        intro j
        show (p.c.sliceLast 1 p.xk.length).get _ = _
        rw [← sliceLast_get hp.shape 1 p.xk.length j i hv.1]
        simp
      rw [hg]
      by_cases h1' : n = 1
      · rw [if_pos h1', if_pos (by omega), h1']
        simp
      · rw [if_neg h1']
        have hkn : k < n := by omega
        rw [List.getD_eq_getElem _ _ (by simpa using hkn)]
        simp only [List.getElem_map, List.getElem_range]
        congr 2
        split <;> omega
    · exact bget_self (by rw [h2]; exact validIdx_cons_iff.2 ⟨by omega, hval⟩)

namespace NdAux

/-- one trip of the loop of the product, on one piece -/
def mulStepL (C : List K) (prod : List K) (d : K) (i : ℕ) : List K :=
  prod.take i ++ List.zipWith (· + ·) ((prod.drop i).take C.length) (C.map (· * d)) ++ prod.drop (i + C.length)

theorem mulStepL_getD (C prod : List K) (d : K) {i : ℕ} (h : i + C.length ≤ prod.length) :
    (mulStepL C prod d i).length = prod.length ∧ ∀ k < prod.length, (mulStepL C prod d i).getD k 0 =
      if i ≤ k ∧ k < i + C.length then prod.getD k 0 + C.getD (k - i) 0 * d else prod.getD k 0 := by
  have hl : (mulStepL C prod d i).length = prod.length := by
    unfold mulStepL
    simp
    omega
  refine ⟨hl, fun k hk => ?_⟩
  have lz : (List.zipWith (· + ·) ((prod.drop i).take C.length) (C.map (· * d))).length = C.length := by simp; omega
  have lt : (prod.take i).length = i := by simp; omega
  unfold mulStepL
  by_cases h1 : k < i
  · rw [if_neg (by omega), List.append_assoc, List.getD_append _ _ _ _ (by omega), List.getD_eq_getElem _ _ (by omega), List.getElem_take, ← List.getD_eq_getElem _ 0 hk]
  · rw [List.append_assoc, List.getD_append_right _ _ _ _ (by omega), lt]
    by_cases h2 : k < i + C.length
    · rw [if_pos ⟨by omega, h2⟩, List.getD_append _ _ _ _ (by omega), List.getD_eq_getElem _ _ (by omega), List.getElem_zipWith, List.getElem_take,
        List.getElem_drop, List.getElem_map, List.getD_eq_getElem prod _ hk, List.getD_eq_getElem C _ (by omega)]
      congr 3
      omega
    · rw [if_neg (by omega), List.getD_append_right _ _ _ _ (by omega), lz, List.getD_eq_getElem?_getD, List.getElem?_drop, ← List.getD_eq_getElem?_getD]
      congr 1
      omega

theorem mulPiece_eq_fold (C : List K) (f : ℕ → K) (m : ℕ) :
    PwPoly.mulPiece C ((List.range m).map f) = (List.range m).foldl (fun prod i => mulStepL C prod (f i) i) (List.replicate (C.length + m - 1) 0) := by
  unfold PwPoly.mulPiece
  have : ((List.range m).map f).zipIdx = (List.range m).map fun i => (f i, i) := by
    refine List.ext_getElem (by simp) fun i h1 h2 => ?_
    simp
  rw [this, List.foldl_map]
  simp only [List.length_map, List.length_range]
  rfl

/-- the loop over the rows `0..j` of the second operand -/
theorem mulLoop_inv {c o : NdArr K} {A B R : List ℕ} {L : ℕ} (hc : c.shape = n :: (A ++ [L])) (ho : o.shape = m :: (B ++ [L])) (hn : 1 ≤ n)
    (hC : Spec.Common [A, B] R) (hA : A.length = R.length) (hB : B.length = R.length) {j : ℕ} (hj : j < m) :
    ∃ r : NdArr K, (List.range (j + 1)).foldlM (fun (prod : Option (NdArr K)) i => do
        let cd ← c.zip (· * ·) (o.row i)
        let prod := prod.getD ⟨(n + m - 1) :: cd.shape.drop 1, fun _ => 0⟩
        let prod ← prod.addSlice i n cd
        return some prod) none = Except.ok (some r) ∧ r.shape = (n + m - 1) :: (R ++ [L]) ∧ ∀ v, ValidIdx R v → ∀ l < L,
      ∀ k < n + m - 1, r.get (k :: (v ++ [l])) =
        ((List.range (j + 1)).foldl (fun prod i => mulStepL ((List.range n).map fun a => c.get (a :: (bcIdx A v ++ [l]))) prod
          (o.get (i :: (bcIdx B v ++ [l]))) i) (List.replicate (n + m - 1) 0)).getD k 0 := by
  have hCC : ∀ i, Spec.Common [c.shape, (o.row i).shape] (n :: (R ++ [L])) := by
    intro i
    show Spec.Common [c.shape, o.shape.tail] _
    rw [hc, ho]
    exact (common_cons2 (common_snoc hC L) (by simp [hA]) (by simp [hB]) n).2
  have hzip : ∀ i, c.zip (· * ·) (o.row i) = .ok ⟨n :: (R ++ [L]), fun idx => bget c idx * bget (o.row i) idx⟩ := fun i => zip_ok_of (hCC i)
  have hval : ∀ i v l k, ValidIdx R v → l < L → k < n → bget c (k :: (v ++ [l])) * bget (o.row i) (k :: (v ++ [l])) =
      c.get (k :: (bcIdx A v ++ [l])) * o.get (i :: (bcIdx B v ++ [l])) := by
    intro i v l k hv hl hk
    unfold bget
    rw [show (o.row i).shape = B ++ [L] by show o.shape.tail = _; rw [ho]; rfl, hc, bcIdx_big (by rw [hA, hv.1]) hk hl, bcIdx_row (by rw [hB, hv.1]) hl]
    rfl
  -- one trip
  have step : ∀ (i : ℕ), i < m → ∀ P : NdArr K, P.shape = (n + m - 1) :: (R ++ [L]) →
      ∃ Q, P.addSlice i n ⟨n :: (R ++ [L]), fun idx => bget c idx * bget (o.row i) idx⟩ = Except.ok Q ∧ Q.shape = (n + m - 1) :: (R ++ [L]) ∧
        ∀ v, ValidIdx R v → ∀ l < L, ∀ k < n + m - 1, Q.get (k :: (v ++ [l])) =
          if i ≤ k ∧ k < i + n then P.get (k :: (v ++ [l])) + c.get ((k - i) :: (bcIdx A v ++ [l])) * o.get (i :: (bcIdx B v ++ [l]))
          else P.get (k :: (v ++ [l])) := by
    intro i hi P hP
    have hPs : (P.sliceAx 0 i n).shape = n :: (R ++ [L]) := by
      show P.shape.set 0 n = _
      rw [hP]
      rfl
    have e1 : (P.sliceAx 0 i n).inplace (· + ·) ⟨n :: (R ++ [L]), fun idx => bget c idx * bget (o.row i) idx⟩ = Except.ok ⟨n :: (R ++ [L]), fun idx =>
        bget (P.sliceAx 0 i n) idx + bget (⟨n :: (R ++ [L]), fun idx => bget c idx * bget (o.row i) idx⟩ : NdArr K) idx⟩ := by
      rw [inplace_ok_pn (by rw [hPs]; exact common_refl _), hPs]
    have e2 : canAssign (n :: (R ++ [L])) (P.shape.set 0 n) = true := by
      rw [hP]
      exact canAssign_of_pn (common_refl _)
    refine ⟨⟨P.shape, fun idx => if i ≤ idx.getD 0 0 ∧ idx.getD 0 0 < i + n
      then (fun idx => bget (P.sliceAx 0 i n) idx + bget (⟨n :: (R ++ [L]), fun idx => bget c idx * bget (o.row i) idx⟩ : NdArr K) idx)
        (bcIdx (n :: (R ++ [L])) (idx.set 0 (idx.getD 0 0 - i))) else P.get idx⟩, ?_, hP, ?_⟩
    · unfold NdArr.addSlice
      rw [e1]
      simp only [bind, Except.bind]
      unfold NdArr.setSlice
      simp only
      rw [if_pos e2]
    · intro v hv l hl k hk
      simp only [List.getD_cons_zero, List.set_cons_zero]
      split
      · rename_i h
        have hvl : ValidIdx (n :: (R ++ [L])) ((k - i) :: (v ++ [l])) := validIdx_cons_iff.2 ⟨by omega, validIdx_append_nd hv (valid1 hl)⟩
        rw [bcIdx_self hvl, bget_self (a := P.sliceAx 0 i n) (by rw [hPs]; exact hvl), bget_self (a := ⟨n :: (R ++ [L]), _⟩) hvl]
        show P.get _ + bget c _ * bget (o.row i) _ = _
        rw [hval i v l (k - i) hv hl (by omega)]
        simp only [List.getD_cons_zero, List.set_cons_zero]
        congr 3
        omega
      · rfl
  have hshape0 : (n + m - 1) :: (n :: (R ++ [L])).drop 1 = (n + m - 1) :: (R ++ [L]) := rfl
  have hmono : ∀ (Cl : List K) (f : ℕ → K), Cl.length = n → ∀ j ≤ m, ((List.range j).foldl (fun prod i => mulStepL Cl prod (f i) i)
      (List.replicate (n + m - 1) 0)).length = n + m - 1 := by
    intro Cl f hCl j hj
    induction j with
    | zero => simp
    | succ j ih =>
      rw [List.range_succ, List.foldl_append, List.foldl_cons, List.foldl_nil]
      have := ih (by omega)
      rw [(mulStepL_getD _ _ _ (by rw [this, hCl]; omega)).1, this]
  induction j with
  | zero =>
    obtain ⟨Q, q1, q2, q3⟩ := step 0 hj ⟨(n + m - 1) :: (R ++ [L]), fun _ => 0⟩ rfl
    refine ⟨Q, ?_, q2, fun v hv l hl k hk => ?_⟩
    · simp only [zero_add, List.range_one, List.foldlM_cons, List.foldlM_nil, hzip, bind, Except.bind, Option.getD_none]
      rw [hshape0, q1]
      rfl
    · rw [q3 v hv l hl k hk]
      simp only [zero_add, List.range_one, List.foldl_cons, List.foldl_nil]
      rw [(mulStepL_getD _ _ _ (by simp; omega)).2 k (by simpa using hk)]
      have hz : (List.replicate (n + m - 1) (0 : K)).getD k 0 = 0 := by
        rw [List.getD_eq_getElem _ _ (by simpa using hk)]
        simp
      rw [hz]
      simp only [List.length_map, List.length_range, zero_add]
      by_cases h : 0 ≤ k ∧ k < n
      · rw [if_pos h, if_pos h, List.getD_eq_getElem (List.map _ _) _ (by simp; omega)]
        simp
      · rw [if_neg h, if_neg h]
  | succ j ih =>
    obtain ⟨r, r1, r2, r3⟩ := ih (by omega)
    obtain ⟨Q, q1, q2, q3⟩ := step (j + 1) hj r r2
    refine ⟨Q, ?_, q2, fun v hv l hl k hk => ?_⟩
    · rw [List.range_succ, List.foldlM_append, r1]
      simp only [List.foldlM_cons, List.foldlM_nil, hzip, bind, Except.bind, Option.getD_some]
      rw [q1]
      rfl
    · rw [q3 v hv l hl k hk, List.range_succ, List.foldl_append, List.foldl_cons, List.foldl_nil]
      have hlen := hmono ((List.range n).map fun a => c.get (a :: (bcIdx A v ++ [l]))) (fun i => o.get (i :: (bcIdx B v ++ [l]))) (by simp) (j + 1) (by omega)
      rw [(mulStepL_getD _ _ _ (by rw [hlen]; simp; omega)).2 k (by rw [hlen]; exact hk), r3 v hv l hl k hk]
      simp only [List.length_map, List.length_range]
      split
      · rename_i h
        congr 1
        rw [List.getD_eq_getElem (List.map _ _) _ (by simp; omega)]
        simp
      · rfl

theorem mulLoop_nd {a b : NdPw K} {A B R : List ℕ} {xk : List K} (ha : NdWF a n A) (hb : NdWF b m B) (hl : a.xk.length = b.xk.length)
    (hx : xk = a.xk ∨ xk = b.xk) (hC : Spec.Common [A, B] R) (hA : A.length = R.length) (hB : B.length = R.length) :
    ∃ c, NdPw.mulLoop a.c b.c = .ok (some c) ∧ NdWF ⟨xk, c⟩ (n + m - 1) R ∧ ∀ v, ValidIdx R v →
      (⟨xk, c⟩ : NdPw K).comp v = ⟨xk, n + m - 1, List.zipWith PwPoly.mulPiece (a.comp (bcIdx A v)).c (b.comp (bcIdx B v)).c⟩ := by
  have hn := ha.pos
  have hm := hb.pos
  have hxl : xk.length = a.xk.length := by rcases hx with rfl | rfl <;> omega
  obtain ⟨j, rfl⟩ : ∃ j, m = j + 1 := ⟨m - 1, by omega⟩
  obtain ⟨r, r1, r2, r3⟩ := mulLoop_inv ha.shape (by rw [hl]; exact hb.shape) hn hC hA hB (Nat.lt_succ_self j)
  have na : a.c.shape.headD 0 = n := by rw [ha.shape]; rfl
  have nb : b.c.shape.headD 0 = j + 1 := by rw [hb.shape]; rfl
  refine ⟨r, ?_, ⟨?_, ?_, by omega, by rw [r2, hxl]⟩, fun v hv => ?_⟩
  · unfold NdPw.mulLoop
    simp only [na, nb]
    exact r1
  · rcases hx with rfl | rfl
    · exact ha.ne
    · exact hb.ne
  · rcases hx with rfl | rfl
    · exact ha.inc
    · exact hb.inc
  · have la : (a.comp (bcIdx A v)).c.length = a.xk.length + 1 := (comp_WF_pn ha _).1.len
    have lb : (b.comp (bcIdx B v)).c.length = b.xk.length + 1 := (comp_WF_pn hb _).1.len
    have hr : r.shape.headD 0 = n + (j + 1) - 1 := by rw [r2]; rfl
    symm
    refine eq_comp rfl hr.symm (by simp only [List.length_zipWith]; omega) fun i hi => ?_
    have hi : i ≤ a.xk.length := by have : i ≤ xk.length := hi; omega
    have e : (List.zipWith PwPoly.mulPiece (a.comp (bcIdx A v)).c (b.comp (bcIdx B v)).c).getD i [] =
        (List.range (j + 1)).foldl (fun prod k => mulStepL ((List.range n).map fun x => a.c.get (x :: (bcIdx A v ++ [i]))) prod
          (b.c.get (k :: (bcIdx B v ++ [i]))) k) (List.replicate (n + (j + 1) - 1) 0) := by
      rw [List.getD_eq_getElem _ _ (by simp only [List.length_zipWith]; omega), List.getElem_zipWith, ← List.getD_eq_getElem _ [] (by omega),
        ← List.getD_eq_getElem _ [] (by omega), comp_getD a _ hi, comp_getD b _ (by omega), na, nb, mulPiece_eq_fold]
      simp
    simp only [hr]
    constructor
    · have h1 := (mulPiece_spec (K := K) ((a.comp (bcIdx A v)).c.getD i []) ((b.comp (bcIdx B v)).c.getD i []) (by
        rw [comp_getD a _ hi, na]; simpa using hn) 0).1
      rw [List.getD_eq_getElem _ _ (by simp only [List.length_zipWith]; omega), List.getElem_zipWith, ← List.getD_eq_getElem _ [] (by omega),
        ← List.getD_eq_getElem _ [] (by omega), h1, comp_getD a _ hi, comp_getD b _ (by omega), na, nb]
      simp
    · intro k hk
      rw [e]
      exact (r3 v hv i (by omega) k hk).symm

theorem mulLoop_err {a b : NdArr K} {L : ℕ} {A B : List ℕ} (ha : a.shape = n :: (A ++ [L])) (hb : b.shape = m :: (B ++ [L])) (hm : 1 ≤ m)
    (h : ¬ ∃ r, Spec.Common [n :: (A ++ [L]), B ++ [L]] r) : NdPw.mulLoop a b = .error .valueError := by
  obtain ⟨j, rfl⟩ : ∃ j, m = j + 1 := ⟨m - 1, by omega⟩
  have nb : b.shape.headD 0 = j + 1 := by rw [hb]; rfl
  have e : a.zip (· * ·) (b.row 0) = .error .valueError := zip_err (by
    show ¬ ∃ r, Spec.Common [a.shape, b.shape.tail] r
    rw [ha, hb]
    exact h)
  unfold NdPw.mulLoop
  simp only [nb]
  rw [List.range_succ_eq_map, List.foldlM_cons, e]
  rfl

end NdAux

/-- **C107** `p * q`, likewise. -/
theorem C107_mul (hp : NdWF p n V) (hq : NdWF q m W) :
    ((¬ ∃ R, Spec.Common [V, W] R) → p.mul q = .error .valueError) ∧
    ∀ R, Spec.Common [V, W] R → ∃ r, p.mul q = .ok r ∧ NdWF r (n + m - 1) R ∧ ∀ v, ValidIdx R v →
      (p.comp (bcIdx V v)).mul (q.comp (bcIdx W v)) = .ok (r.comp v) := by
  obtain ⟨a, b, h1, h2, h3, h4, h5⟩ := binary_nd hp hq true
  simp only [if_true] at h2 h3 h5
  have na : a.c.shape.headD 0 = n := by rw [h2.shape]; rfl
  have nb : b.c.shape.headD 0 = m := by rw [h3.shape]; rfl
  have hn := hp.pos
  have hm := hq.pos
  constructor
  · intro h
    unfold NdPw.mul
    rw [h1]
    simp only [bind, Except.bind, na, nb]
    have hba := not_common (fun ⟨R, hR⟩ => h ⟨R, hR.perm (List.Perm.swap _ _ _)⟩) (V.length - W.length) (W.length - V.length) (b.xk.length + 1) [m] []
      (by simp) (by simp) (by omega)
    have hab := not_common h (W.length - V.length) (V.length - W.length) (b.xk.length + 1) [n] [] (by simp) (by simp) (by omega)
    by_cases hnm : n < m
    · simp only [hnm, if_true]
      rw [mulLoop_err h3.shape (by rw [h2.shape, h4]) hn (by simpa using hba)]
    · simp only [hnm, if_false]
      rw [mulLoop_err (by rw [h2.shape, h4]) h3.shape hm (by simpa using hab)]
  · intro R hR
    obtain ⟨c1, c2, c3⟩ := common_ones hR
    have hs := fun v (hv : ValidIdx R v) => h5 (bcIdx V v) (bcIdx W v) (common_valid hR (by simp) hv) (common_valid hR (by simp) hv)
    have ev : ∀ v, ValidIdx R v → bcIdx (List.replicate (W.length - V.length) 1 ++ V) v = List.replicate (W.length - V.length) 0 ++ bcIdx V v :=
      fun v hv => bcIdx_ones (by have := hv.1; simp at c2; omega)
    have ew : ∀ v, ValidIdx R v → bcIdx (List.replicate (V.length - W.length) 1 ++ W) v = List.replicate (V.length - W.length) 0 ++ bcIdx W v :=
      fun v hv => bcIdx_ones (by have := hv.1; simp at c3; omega)
    by_cases hnm : n < m
    · obtain ⟨c, e1, e2, e3⟩ := mulLoop_nd (xk := a.xk) h3 h2 h4.symm (.inr rfl) (c1.perm (List.Perm.swap _ _ _)) c3 c2
      refine ⟨⟨a.xk, c⟩, ?_, by rw [Nat.add_comm n m]; exact e2, fun v hv => ?_⟩
      · unfold NdPw.mul
        rw [h1]
        simp only [bind, Except.bind, na, nb, hnm, if_true]
        rw [e1]
        rfl
      · unfold PwPoly.mul
        rw [hs v hv]
        simp only [Except.map]
        rw [(comp_WF_pn h2 _).2.1, (comp_WF_pn h3 _).2.1, if_pos hnm, e3 v hv, ev v hv, ew v hv, (comp_WF_pn h2 _).2.2]
    · obtain ⟨c, e1, e2, e3⟩ := mulLoop_nd (xk := a.xk) h2 h3 h4 (.inl rfl) c1 c2 c3
      refine ⟨⟨a.xk, c⟩, ?_, e2, fun v hv => ?_⟩
      · unfold NdPw.mul
        rw [h1]
        simp only [bind, Except.bind, na, nb, hnm, if_false]
        rw [e1]
        rfl
      · unfold PwPoly.mul
        rw [hs v hv]
        simp only [Except.map]
        rw [(comp_WF_pn h2 _).2.1, (comp_WF_pn h3 _).2.1, if_neg hnm, e3 v hv, ev v hv, ew v hv, (comp_WF_pn h2 _).2.2]

/-- **C107** the values: with separated (or equal) knots, `(p + q)(x) = p(x) + q(x)`, likewise `-` and `*`, for every array `x`, where the axes of
the components broadcast (those of `x` do not take part). -/
theorem C107_values (hp : NdWF p n V) (hq : NdWF q m W) {R : List ℕ} (hR : Spec.Common [V, W] R) {D : K} (hD : Separated (defaultTol K) D p.xk q.xk)
    (x : NdArr K) : ∃ r s t px qx rx sx tx, p.add q = .ok r ∧ p.sub q = .ok s ∧ p.mul q = .ok t ∧ p.call x 0 = .ok px ∧ q.call x 0 = .ok qx ∧
      r.call x 0 = .ok rx ∧ s.call x 0 = .ok sx ∧ t.call x 0 = .ok tx ∧ rx.shape = R ++ x.shape ∧ sx.shape = R ++ x.shape ∧ tx.shape = R ++ x.shape ∧
      ∀ v i, ValidIdx R v → ValidIdx x.shape i → rx.get (v ++ i) = px.get (bcIdx V v ++ i) + qx.get (bcIdx W v ++ i) ∧
        sx.get (v ++ i) = px.get (bcIdx V v ++ i) - qx.get (bcIdx W v ++ i) ∧ tx.get (v ++ i) = px.get (bcIdx V v ++ i) * qx.get (bcIdx W v ++ i) := by
  obtain ⟨r, r1, r2, r3⟩ := (C107_add hp hq).2 R hR
  obtain ⟨s, s1, s2, s3⟩ := (C107_sub hp hq).2 R hR
  obtain ⟨t, t1, t2, t3⟩ := (C107_mul hp hq).2 R hR
  obtain ⟨px, p1, -, p3⟩ := (C106_call hp x).1
  obtain ⟨qx, q1, -, q3⟩ := (C106_call hq x).1
  obtain ⟨rx, a1, a2, a3⟩ := (C106_call r2 x).1
  obtain ⟨sx, b1, b2, b3⟩ := (C106_call s2 x).1
  obtain ⟨tx, c1, c2, c3⟩ := (C106_call t2 x).1
  refine ⟨r, s, t, px, qx, rx, sx, tx, r1, s1, t1, p1, q1, a1, b1, c1, a2, b2, c2, fun v i hv hi => ?_⟩
  have hv1 := common_valid hR (s := V) (by simp) hv
  have hv2 := common_valid hR (s := W) (by simp) hv
  have wp := (comp_WF_pn hp (bcIdx V v)).1
  have wq := (comp_WF_pn hq (bcIdx W v)).1
  obtain ⟨r', s', e1, e2, e3⟩ := C16_separated wp wq hD
  obtain ⟨t', e4, e5⟩ := C17_separated wp wq hD
  rw [r3 v hv] at e1
  rw [s3 v hv] at e2
  rw [t3 v hv] at e4
  cases e1
  cases e2
  cases e4
  rw [a3 v i hv hi, b3 v i hv hi, c3 v i hv hi, p3 _ i hv1 hi, q3 _ i hv2 hi]
  exact ⟨(e3 _).1, (e3 _).2, e5 _⟩

/-- the documented "`p[i]`, components of `p`" for an index tuple of all axes: the scalar function with the coefficients `c[:, i, :]` -/
theorem comp_is_component (hp : NdWF p n V) (v : List ℕ) : WF (p.comp v) ∧ (p.comp v).xk = p.xk ∧
    ∀ i ≤ p.xk.length, ∀ k < n, ((p.comp v).c.getD i []).getD k 0 = p.c.get (k :: (v ++ [i])) := by
  refine ⟨(comp_WF_pn hp v).1, rfl, fun i hi k hk => ?_⟩
  rw [comp_getD p v hi, hp.shape, List.getD_eq_getElem _ _ (by simpa using hk)]
  simp

/-! ### non-trivial instances: components of shape (2,) and (3, 1), different degrees and knots -/

/-- constants on [1, 3]: component (a, 0), piece i: a + 2 i -/
def ndEx2 : NdPw ℚ := ⟨[1, 3], ⟨[1, 3, 1, 3], fun idx => idx.getD 1 0 + 2 * idx.getD 3 0⟩⟩

theorem ndEx2_WF : NdWF ndEx2 1 [3, 1] := ⟨by simp [ndEx2], by simp [ndEx2], by norm_num, rfl⟩

theorem ndEx_common : Spec.Common [[2], [3, 1]] [3, 2] := by
  refine ⟨by simp, ⟨[3, 1], by simp, rfl⟩, fun u hu k => ?_, fun k => ?_⟩
  · rcases List.mem_pair.1 hu with rfl | rfl <;> rcases k with _ | _ | k <;> simp [rdim]
  · rcases k with _ | _ | k
    · exact ⟨[2], by simp, by simp [rdim]⟩
    · exact ⟨[3, 1], by simp, by simp [rdim]⟩
    · exact ⟨[2], by simp, by simp [rdim]⟩

theorem ndEx_sep : Separated (defaultTol ℚ) 10 ndEx.xk ndEx2.xk := by
  refine ⟨by norm_num, ?_, ?_, by simp [ndEx], ?_⟩
  · intro j h
    obtain rfl : j = 0 := by simp [ndEx] at h; omega
    simp [ndEx]
  · intro j h
    obtain rfl : j = 0 := by simp [ndEx2] at h; omega
    simp [ndEx2]
    norm_num
  · intro x hx y hy
    simp [ndEx, ndEx2] at hx hy
    rcases hx with rfl | rfl <;> rcases hy with rfl | rfl <;> norm_num [defaultTol]

/-- all hypotheses hold together: the sum has components of shape (3, 2) -/
example : ∃ r, ndEx.add ndEx2 = .ok r ∧ NdWF r 2 [3, 2] := by
  obtain ⟨r, h1, h2, -⟩ := (C107_add ndEx_WF ndEx2_WF).2 _ ndEx_common
  exact ⟨r, h1, h2⟩

example := C107_values ndEx_WF ndEx2_WF ndEx_common ndEx_sep ndExX

/-- components of shapes (2,) and (3,) do not broadcast -/
example : ndEx.mul ⟨[1, 3], ⟨[1, 3, 3], fun _ => 1⟩⟩ = .error .valueError := by
  refine (C107_mul ndEx_WF (q := ⟨[1, 3], ⟨[1, 3, 3], fun _ => 1⟩⟩) (m := 1) (W := [3]) ⟨by simp, by simp, by norm_num, rfl⟩).1 ?_
  rintro ⟨r, h⟩
  have h1 := h.fits [2] (by simp) 0
  have h2 := h.fits [3] (by simp) 0
  simp [rdim] at h1 h2
  omega

example : ∃ r, ndEx.deriv 1 = .ok r ∧ NdWF r 1 [2] := by
  obtain ⟨r, h1, h2, -⟩ := C107_deriv ndEx_WF 1
  exact ⟨r, h1, h2⟩

example : ndEx.jumps (some 2) = .error .valueError := (C107_jumps ndEx_WF (some 2)).1 (by simp)

end Npplus
