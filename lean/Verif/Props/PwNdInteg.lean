import Verif.Props.PwNd
import Verif.Lemmas.PwInteg
import Verif.Props.Calculus

/-!
# Property C108: `integ` for functions with components
-/

set_option linter.unusedSectionVars false
namespace Npplus
open Spec NdArr NdAux
open PwPoly (mkXk0 diffs integPiece stepUp stepSum addHead)

variable {K : Type} [Field K] [LinearOrder K] [IsStrictOrderedRing K]
variable {p : NdPw K} {n m : ℕ} {V : List ℕ}

namespace NdAux

theorem eq_comp_c {r : NdPw K} {v : List ℕ} {C : List (List K)} (h3 : C.length = r.xk.length + 1)
    (h4 : ∀ i ≤ r.xk.length, (C.getD i []).length = r.c.shape.headD 0 ∧
      ∀ k < r.c.shape.headD 0, (C.getD i []).getD k 0 = r.c.get (k :: (v ++ [i]))) : C = (r.comp v).c := by
  have := eq_comp (r := r) (v := v) (P := ⟨r.xk, r.c.shape.headD 0, C⟩) rfl rfl h3 h4
  rw [← this]

theorem common_one (s : List ℕ) : Spec.Common [s, List.replicate s.length 1] s := by
  refine ⟨by simp, ⟨s, by simp, rfl⟩, fun u hu k => ?_, fun k => ⟨s, by simp, rfl⟩⟩
  rcases List.mem_pair.1 hu with rfl | rfl
  · exact .inl rfl
  · right
    have := rdim_ones s.length [] k
    rw [List.append_nil] at this
    rw [this]
    exact rdim_of_ge (by simp)

/-- multiply every row by a number -/
theorem zip_rows {c : NdArr K} {L : ℕ} (hc : c.shape = n :: (V ++ [L])) (g : ℕ → K) :
    ∃ r, c.zip (· * ·) ⟨n :: List.replicate (c.shape.length - 1) 1, fun idx => g (idx.headD 0)⟩ = .ok r ∧ r.shape = n :: (V ++ [L]) ∧
      ∀ k < n, ∀ v, ValidIdx V v → ∀ i < L, r.get (k :: (v ++ [i])) = c.get (k :: (v ++ [i])) * g k := by
  have hl : c.shape.length - 1 = (V ++ [L]).length := by rw [hc]; simp
  have hC : Spec.Common [c.shape, n :: List.replicate (c.shape.length - 1) 1] (n :: (V ++ [L])) := by
    rw [hl, hc]
    exact (common_cons2 (common_one _) rfl (by simp) n).1
  refine ⟨_, zip_ok_of hC, rfl, fun k hk v hv i hi => ?_⟩
  have hval : ValidIdx (V ++ [L]) (v ++ [i]) := validIdx_append_nd hv (valid1 hi)
  show bget c _ * bget _ _ = _
  rw [bget_self (by rw [hc]; exact validIdx_cons_iff.2 ⟨hk, hval⟩)]
  congr 1
  unfold bget
  rw [hl]
  have h2 : bcIdx (n :: List.replicate (V ++ [L]).length 1) (k :: (v ++ [i])) = k :: bcIdx (List.replicate (V ++ [L]).length 1) (v ++ [i]) := by
    unfold bcIdx
    simp only [List.length_cons, List.length_append, List.length_nil, List.length_replicate, hv.1, Nat.sub_self, List.drop_zero, List.zipWith_cons_cons]
    congr 1
    split <;> omega
  rw [h2]
  rfl

theorem integA_nd (hp : NdWF p n V) {c0 : NdArr K} (h0 : c0.shape = 1 :: (V ++ [p.xk.length + 1])) (hz : ∀ idx, c0.get idx = 0) :
    ∃ cn, p.c.zip (· * ·) ⟨n :: List.replicate (p.c.shape.length - 1) 1, fun idx => 1 / ((idx.headD 0 + 1 : ℕ) : K)⟩ = .ok cn ∧
      NdWF ⟨p.xk, concatAx 0 c0 cn⟩ (n + 1) V ∧
      ∀ v, ValidIdx V v → (p.comp v).c.map (integPiece K) = ((⟨p.xk, concatAx 0 c0 cn⟩ : NdPw K).comp v).c := by
  obtain ⟨cn, h1, h2, h3⟩ := zip_rows hp.shape fun k => 1 / ((k + 1 : ℕ) : K)
  have hsh : (concatAx 0 c0 cn).shape = (n + 1) :: (V ++ [p.xk.length + 1]) := by
    show c0.shape.set 0 (c0.shape.getD 0 0 + cn.shape.getD 0 0) = _
    rw [h0, h2]
    simp [Nat.add_comm]
  refine ⟨cn, h1, ⟨hp.ne, hp.inc, by omega, hsh⟩, fun v hv => ?_⟩
  have hl : (p.comp v).c.length = p.xk.length + 1 := (comp_WF_pn hp v).1.len
  have hn' : p.c.shape.headD 0 = n := by rw [hp.shape]; rfl
  refine eq_comp_c (by simpa using hl) fun i hi => ?_
  have hi : i ≤ p.xk.length := hi
  have e : ((p.comp v).c.map (integPiece K)).getD i [] = integPiece K ((List.range n).map fun j => p.c.get (j :: (v ++ [i]))) := by
    rw [List.getD_eq_getElem _ _ (by simp; omega), List.getElem_map, ← List.getD_eq_getElem _ [] (by omega), comp_getD p v hi, hn']
  rw [e]
  simp only [hsh, List.headD_cons]
  refine ⟨by simp [integPiece], fun k hk => ?_⟩
  show _ = if (k :: (v ++ [i])).getD 0 0 < c0.shape.getD 0 0 then c0.get (k :: (v ++ [i])) else
    cn.get ((k :: (v ++ [i])).set 0 ((k :: (v ++ [i])).getD 0 0 - c0.shape.getD 0 0))
  rw [h0]
  simp only [List.getD_cons_zero, List.set_cons_zero]
  rcases k with _ | k
  · rw [if_pos (by omega), hz]
    simp [integPiece]
  · rw [if_neg (by omega), Nat.add_sub_cancel, h3 k (by omega) v hv i (by omega)]
    unfold integPiece
    rw [List.getD_cons_succ, List.getD_eq_getElem _ _ (by simp; omega), List.getElem_mapIdx, smul_eq_mul, mul_comm]
    simp

theorem sliceLast_shape' {c : NdArr K} {L : ℕ} (h : c.shape = V ++ [L]) (lo len : ℕ) : (c.sliceLast lo len).shape = V ++ [len] := by
  show c.shape.set (c.shape.length - 1) len = _
  rw [h, show (V ++ [L]).length - 1 = V.length by simp, List.set_append_right _ _ le_rfl]
  simp

theorem sliceLast_get' {c : NdArr K} {L : ℕ} (h : c.shape = V ++ [L]) (lo len i : ℕ) {v : List ℕ} (hv : v.length = V.length) :
    (c.sliceLast lo len).get (v ++ [i]) = c.get (v ++ [i + lo]) := by
  show c.get ((v ++ [i]).set (c.shape.length - 1) ((v ++ [i]).getD (c.shape.length - 1) 0 + lo)) = _
  rw [h, show (V ++ [L]).length - 1 = v.length by simp [hv], List.set_append_right _ _ le_rfl, List.getD_append_right _ _ _ _ le_rfl]
  simp

theorem canAssign_refl (s : List ℕ) : canAssign s s = true := canAssign_of_pn (common_refl s)

/-- `c[0] = row` -/
theorem setRow0 {c row : NdArr K} {S : List ℕ} (hc : c.shape = n :: S) (hr : row.shape = S) :
    ∃ r, c.setAt 0 0 row = .ok r ∧ r.shape = n :: S ∧ ∀ k idx, ValidIdx S idx → r.get (k :: idx) = if k = 0 then row.get idx else c.get (k :: idx) := by
  refine ⟨⟨c.shape, fun idx => if idx.getD 0 0 = 0 then row.get (bcIdx row.shape (idx.eraseIdx 0)) else c.get idx⟩, ?_, hc, fun k idx hi => ?_⟩
  · unfold setAt
    rw [if_pos]
    rw [hc, hr]
    exact canAssign_refl _
  · simp only [List.getD_cons_zero, List.eraseIdx_zero, List.tail_cons]
    rw [hr, bcIdx_self hi]

theorem addTail_nd {c inc : NdArr K} {L : ℕ} (hc : c.shape = n :: (V ++ [L])) (hL : 2 ≤ L) (hi : inc.shape = V ++ [L - 2]) :
    ∃ r, NdPw.addTail c inc = .ok r ∧ r.shape = n :: (V ++ [L]) ∧ ∀ k v, ValidIdx V v → ∀ i < L, r.get (k :: (v ++ [i])) =
      if k = 0 then c.get (0 :: (v ++ [i])) + (if 2 ≤ i then inc.get (v ++ [i - 2]) else 0) else c.get (k :: (v ++ [i])) := by
  have hnd : c.shape.length - 2 = V.length := by rw [hc]; simp
  have hLL : c.shape.getD (c.shape.length - 1) 0 = L := by
    rw [hc, show (n :: (V ++ [L])).length - 1 = V.length + 1 by simp, List.getD_cons_succ, List.getD_append_right _ _ _ _ le_rfl]
    simp
  have hrow : (c.row 0).shape = V ++ [L] := by show c.shape.tail = _; rw [hc]; rfl
  have hs := sliceLast_shape' hrow 2 (L - 2)
  have e1 : ((c.row 0).sliceLast 2 (L - 2)).inplace (· + ·) inc = .ok ⟨V ++ [L - 2], fun idx => bget ((c.row 0).sliceLast 2 (L - 2)) idx + bget inc idx⟩ := by
    rw [inplace_ok_pn (by rw [hs, hi]; exact common_refl _), hs]
  have ca : canAssign (V ++ [L - 2]) ((c.row 0).shape.set V.length (L - 2)) = true := by
    rw [hrow, List.set_append_right _ _ le_rfl]
    simpa using canAssign_refl (V ++ [L - 2])
  set row2 : NdArr K := ⟨(c.row 0).shape, fun idx => if 2 ≤ idx.getD V.length 0 ∧ idx.getD V.length 0 < 2 + (L - 2)
      then (fun idx => bget ((c.row 0).sliceLast 2 (L - 2)) idx + bget inc idx) (bcIdx (V ++ [L - 2]) (idx.set V.length (idx.getD V.length 0 - 2)))
      else (c.row 0).get idx⟩ with hr2
  have e2 : (c.row 0).setSlice V.length 2 (L - 2) ⟨V ++ [L - 2], fun idx => bget ((c.row 0).sliceLast 2 (L - 2)) idx + bget inc idx⟩ = .ok row2 := by
    unfold setSlice
    simp only
    rw [if_pos ca]
  obtain ⟨r, h1, h2, h3⟩ := setRow0 (row := row2) hc hrow
  refine ⟨r, ?_, h2, fun k v hv i hiL => ?_⟩
  · unfold NdPw.addTail
    simp only [hLL, hnd]
    rw [e1]
    simp only [bind, Except.bind]
    rw [e2]
    exact h1
  · rw [h3 k (v ++ [i]) (validIdx_append_nd hv (valid1 hiL))]
    split
    · have g : (v ++ [i]).getD V.length 0 = i := by rw [← hv.1, List.getD_append_right _ _ _ _ le_rfl]; simp
      have st : (v ++ [i]).set V.length (i - 2) = v ++ [i - 2] := by rw [← hv.1, List.set_append_right _ _ le_rfl]; simp
      rw [hr2]
      simp only [g, st]
      by_cases h : 2 ≤ i
      · have hval : ValidIdx (V ++ [L - 2]) (v ++ [i - 2]) := validIdx_append_nd hv (valid1 (by omega))
        rw [if_pos ⟨h, by omega⟩, if_pos h, bcIdx_self hval, bget_self (by rw [hs]; exact hval), bget_self (a := inc) (by rw [hi]; exact hval),
          sliceLast_get' hrow _ _ _ hv.1, show i - 2 + 2 = i by omega]
        rfl
      · rw [if_neg (by omega), if_neg h, add_zero]
        rfl
    · rfl

theorem coefsAt_sliceLast (hp : NdWF p n V) (len i : ℕ) {v : List ℕ} (hv : ValidIdx V v) (hi : i < len) (hl : i + 1 ≤ p.xk.length) :
    coefsAt (p.c.sliceLast 1 len) (v ++ [i]) = (p.comp v).c.getD (i + 1) [] := by
  have hn' : p.c.shape.headD 0 = n := by rw [hp.shape]; rfl
  unfold coefsAt
  rw [sliceLast_shape hp.shape]
  simp only [List.headD_cons, List.tail_cons]
  rw [bcIdx_self (validIdx_append_nd hv (valid1 hi)), comp_getD p v hl, hn']
  exact List.map_congr_left fun j _ => sliceLast_get hp.shape _ _ _ _ hv.1

theorem getD_addHead (s : K) (l : List K) (k : ℕ) (hk : k < l.length) : (addHead s l).length = l.length ∧
    (addHead s l).getD k 0 = if k = 0 then l.getD 0 0 + s else l.getD k 0 := by
  cases l with
  | nil => simp at hk
  | cons a l => cases k <;> simp [addHead]

theorem stepUp_nd (hp : NdWF p n V) (hx : 1 < p.xk.length) :
    ∃ c, (do let inc ← polyfunNd (p.c.sliceLast 1 (p.c.shape.getD (p.c.shape.length - 1) 0 - 2)) (NdArr.of1 (diffs p.xk))
             NdPw.addTail p.c (inc.cumsumAx (inc.shape.length - 1))) = Except.ok c ∧
      NdWF ⟨p.xk, c⟩ n V ∧ ∀ v, ValidIdx V v → stepUp p.xk (p.comp v).c = ((⟨p.xk, c⟩ : NdPw K).comp v).c := by
  have hLL : p.c.shape.getD (p.c.shape.length - 1) 0 = p.xk.length + 1 := by
    rw [hp.shape, show (n :: (V ++ [p.xk.length + 1])).length - 1 = V.length + 1 by simp, List.getD_cons_succ, List.getD_append_right _ _ _ _ le_rfl]
    simp
  have hd : (diffs p.xk).length = p.xk.length - 1 := PwPoly.length_diffs _
  have hpos := hp.pos
  have hsh := sliceLast_shape hp.shape 1 (p.xk.length + 1 - 2)
  obtain ⟨inc, i1, i2, i3⟩ := (C106_polyfun (p.c.sliceLast 1 (p.xk.length + 1 - 2)) (NdArr.of1 (diffs p.xk))).2.2 (V ++ [p.xk.length + 1 - 2])
    (by rw [hsh]; simp; omega) (by
      rw [hsh]
      show Spec.Common [V ++ [p.xk.length + 1 - 2], [(diffs p.xk).length]] _
      rw [hd, show p.xk.length + 1 - 2 = p.xk.length - 1 by omega]
      exact common_append_pn V _)
  obtain ⟨c, c1, c2, c3⟩ := addTail_nd (inc := inc.cumsumAx (inc.shape.length - 1)) hp.shape (by omega) i2
  refine ⟨c, ?_, ⟨hp.ne, hp.inc, hp.pos, c2⟩, fun v hv => ?_⟩
  · rw [hLL]
    simp only [bind, Except.bind]
    rw [i1]
    exact c1
  · have hl : (p.comp v).c.length = p.xk.length + 1 := (comp_WF_pn hp v).1.len
    have hn' : p.c.shape.headD 0 = n := by rw [hp.shape]; rfl
    refine eq_comp_c (by rw [PwPoly.stepUp_length _ _ hl hx, hl]) fun i hi => ?_
    have hi : i ≤ p.xk.length := hi
    rw [PwPoly.stepUp_getD _ _ hl hx i (by omega)]
    have hpl : ((p.comp v).c.getD i []).length = n := by rw [comp_getD p v hi, hn']; simp
    simp only [c2, List.headD_cons]
    refine ⟨by rw [(getD_addHead _ _ 0 (by omega)).1, hpl], fun k hk => ?_⟩
    rw [(getD_addHead _ _ k (by omega)).2, c3 k v hv i (by omega)]
    have g : ∀ k < n, ((p.comp v).c.getD i []).getD k 0 = p.c.get (k :: (v ++ [i])) := by
      intro k hk
      rw [comp_getD p v hi, hn', List.getD_eq_getElem _ _ (by simpa using hk)]
      simp
    split
    · rw [g 0 (by omega)]
      congr 1
      have hterm : ∀ j, j < p.xk.length - 1 → inc.get (v ++ [j]) = polyVal ((p.comp v).c.getD (j + 1) []) (p.xk.getD (j + 1) 0 - p.xk.getD j 0) := by
        intro j hj
        have hval : ValidIdx (V ++ [p.xk.length + 1 - 2]) (v ++ [j]) := validIdx_append_nd hv (valid1 (by omega))
        rw [i3 _ hval, coefsAt_sliceLast hp _ j hv (by omega) (by omega)]
        congr 1
        have hb : bcIdx [(diffs p.xk).length] (v ++ [j]) = [j] := by
          unfold bcIdx
          rw [show (v ++ [j]).length - [(diffs p.xk).length].length = v.length by simp, List.drop_left]
          simp
          omega
        show (diffs p.xk).getD ((bcIdx [(diffs p.xk).length] (v ++ [j])).headD 0) 0 = _
        rw [hb]
        show (diffs p.xk).getD j 0 = _
        rw [List.getD_eq_getElem _ _ (by omega), PwPoly.diffs_getElem]
      unfold stepSum
      by_cases h2 : 2 ≤ i
      · rw [if_pos h2]
        have hcum : (inc.cumsumAx (inc.shape.length - 1)).get (v ++ [i - 2]) = accum (fun a => inc.get (v ++ [a])) (i - 2) := by
          show accum (fun a => inc.get ((v ++ [i - 2]).set (inc.shape.length - 1) a)) ((v ++ [i - 2]).getD (inc.shape.length - 1) 0) = _
          have e : inc.shape.length - 1 = v.length := by rw [i2, hv.1]; simp
          rw [e, List.getD_append_right _ _ _ _ le_rfl]
          simp [List.set_append_right]
        rw [hcum, accum_eq_sum, show i - 2 + 1 = i - 1 by omega]
        refine Finset.sum_congr rfl fun j hj => ?_
        have := Finset.mem_range.1 hj
        exact (hterm j (by omega)).symm
      · rw [if_neg h2, show i - 1 = 0 by omega]
        simp
    · exact g k hk

theorem integC_nd (hp : NdWF p n V) {ib : ℕ} (hib : ib ≤ p.xk.length) (lb : K) {kk : NdArr K} (hk : kk.shape = V) :
    ∃ c, (do let y ← polyfunNd (p.c.atLast ib) ⟨[], fun _ => lb⟩
             let d ← kk.zip (· - ·) y
             let row ← (p.c.row 0).inplace (· + ·) (d.newAxis d.shape.length)
             p.c.setAt 0 0 row) = Except.ok c ∧ NdWF ⟨p.xk, c⟩ n V ∧
      ∀ v, ValidIdx V v → (p.comp v).c.map (addHead (kk.get v - polyfun ((p.comp v).c.getD ib []) lb)) = ((⟨p.xk, c⟩ : NdPw K).comp v).c := by
  have hpos := hp.pos
  have hn' : p.c.shape.headD 0 = n := by rw [hp.shape]; rfl
  have hsh : (p.c.atLast ib).shape = n :: V := by
    show p.c.shape.dropLast = _
    rw [hp.shape]
    simp [List.dropLast_cons_of_ne_nil, List.dropLast_append_of_ne_nil]
  obtain ⟨y, y1, y2, y3⟩ := (C106_polyfun (p.c.atLast ib) ⟨[], fun _ => lb⟩).2.2 V (by rw [hsh]; simp; omega) (by
    rw [hsh]
    have := common_append_pn V []
    simpa using this)
  have hd : kk.zip (· - ·) y = .ok ⟨V, fun idx => bget kk idx - bget y idx⟩ := zip_ok_of (by rw [hk, y2]; exact common_refl _)
  set d : NdArr K := ⟨V, fun idx => bget kk idx - bget y idx⟩ with hdd
  have hrow : (p.c.row 0).shape = V ++ [p.xk.length + 1] := by show p.c.shape.tail = _; rw [hp.shape]; rfl
  have hna : (d.newAxis d.shape.length).shape = V ++ [1] := by
    show d.shape.insertIdx d.shape.length 1 = _
    rw [List.insertIdx_length_self]
  have hC : Spec.Common [V ++ [p.xk.length + 1], V ++ [1]] (V ++ [p.xk.length + 1]) := by
    refine ⟨by simp, ⟨V ++ [p.xk.length + 1], by simp, rfl⟩, fun u hu k => ?_, fun k => ⟨V ++ [p.xk.length + 1], by simp, rfl⟩⟩
    rcases List.mem_pair.1 hu with rfl | rfl
    · exact .inl rfl
    · rw [rdim_snoc, rdim_snoc]
      split
      · exact .inr rfl
      · exact .inl rfl
  have e3 : (p.c.row 0).inplace (· + ·) (d.newAxis d.shape.length) =
      .ok ⟨V ++ [p.xk.length + 1], fun idx => bget (p.c.row 0) idx + bget (d.newAxis d.shape.length) idx⟩ := by
    rw [inplace_ok_pn (by rw [hrow, hna]; exact hC), hrow]
  obtain ⟨c, c1, c2, c3⟩ := setRow0 (c := p.c) (row := ⟨V ++ [p.xk.length + 1], fun idx => bget (p.c.row 0) idx + bget (d.newAxis d.shape.length) idx⟩)
    hp.shape rfl
  refine ⟨c, ?_, ⟨hp.ne, hp.inc, hp.pos, c2⟩, fun v hv => ?_⟩
  · simp only [bind, Except.bind]
    rw [y1]
    simp only
    rw [hd]
    simp only
    rw [e3]
    exact c1
  · have hl : (p.comp v).c.length = p.xk.length + 1 := (comp_WF_pn hp v).1.len
    refine eq_comp_c (by simpa using hl) fun i hi => ?_
    have hi : i ≤ p.xk.length := hi
    have hpl : ((p.comp v).c.getD i []).length = n := by rw [comp_getD p v hi, hn']; simp
    have e : ∀ s : K, ((p.comp v).c.map (addHead s)).getD i [] = addHead s ((p.comp v).c.getD i []) := by
      intro s
      rw [List.getD_eq_getElem _ _ (by simp; omega), List.getElem_map, ← List.getD_eq_getElem _ [] (by omega)]
    rw [e]
    simp only [c2, List.headD_cons]
    refine ⟨by rw [(getD_addHead _ _ 0 (by omega)).1, hpl], fun k hkn => ?_⟩
    have hval : ValidIdx (V ++ [p.xk.length + 1]) (v ++ [i]) := validIdx_append_nd hv (valid1 (by omega))
    have g : ∀ k < n, ((p.comp v).c.getD i []).getD k 0 = p.c.get (k :: (v ++ [i])) := by
      intro k hk
      rw [comp_getD p v hi, hn', List.getD_eq_getElem _ _ (by simpa using hk)]
      simp
    rw [(getD_addHead _ _ k (by omega)).2, c3 k _ hval]
    split
    · show _ = bget (p.c.row 0) (v ++ [i]) + bget (d.newAxis d.shape.length) (v ++ [i])
      rw [g 0 (by omega), bget_self (a := p.c.row 0) (by rw [hrow]; exact hval)]
      show p.c.get (0 :: (v ++ [i])) + _ = p.c.get (0 :: (v ++ [i])) + _
      congr 1
      have hb : bcIdx (V ++ [1]) (v ++ [i]) = v ++ [0] := by
        have := bcIdx_self hv
        unfold bcIdx at this ⊢
        simp only [List.length_append, List.length_cons, List.length_nil, hv.1, Nat.sub_self, List.drop_zero] at this ⊢
        rw [List.zipWith_append hv.1.symm, this]
        simp
      unfold bget
      rw [hna, hb]
      show _ = d.get ((v ++ [0]).eraseIdx d.shape.length)
      have : (v ++ [0]).eraseIdx d.shape.length = v := by
        rw [show d.shape.length = v.length from hv.1.symm, List.eraseIdx_append_of_length_le le_rfl]
        simp
      rw [this, hdd]
      show _ = bget kk v - bget y v
      rw [bget_self (by rw [hk]; exact hv), bget_self (by rw [y2]; exact hv), y3 v hv, polyfun_eq]
      congr 2
      unfold coefsAt
      rw [hsh]
      simp only [List.headD_cons, List.tail_cons]
      rw [bcIdx_self hv, comp_getD p v hib, hn']
      rfl
    · exact g k hkn

/-- one integration -/
theorem integStep_nd (hp : NdWF p n V) {c0 : NdArr K} (h0 : c0.shape = 1 :: (V ++ [p.xk.length + 1])) (hz : ∀ idx, c0.get idx = 0)
    {ib : ℕ} (hib : ib ≤ p.xk.length) (lb : K) {kk : NdArr K} (hk : kk.shape = V) :
    ∃ c, NdPw.integStep p.xk ib lb c0 p.c kk = .ok c ∧ NdWF ⟨p.xk, c⟩ (n + 1) V ∧
      ∀ v, ValidIdx V v → PwPoly.integStep p.xk ib lb (p.comp v).c (kk.get v) = ((⟨p.xk, c⟩ : NdPw K).comp v).c := by
  have hn' : p.c.shape.headD 0 = n := by rw [hp.shape]; rfl
  obtain ⟨cn, a1, a2, a3⟩ := integA_nd hp h0 hz
  obtain ⟨c2, b1, b2, b3⟩ : ∃ c2, (if 1 < p.xk.length then do
      let inc ← polyfunNd ((concatAx 0 c0 cn).sliceLast 1 ((concatAx 0 c0 cn).shape.getD ((concatAx 0 c0 cn).shape.length - 1) 0 - 2)) (NdArr.of1 (diffs p.xk))
      NdPw.addTail (concatAx 0 c0 cn) (inc.cumsumAx (inc.shape.length - 1))
    else pure (concatAx 0 c0 cn)) = Except.ok c2 ∧ NdWF ⟨p.xk, c2⟩ (n + 1) V ∧ ∀ v, ValidIdx V v →
      (if 1 < p.xk.length then stepUp p.xk ((p.comp v).c.map (integPiece K)) else (p.comp v).c.map (integPiece K)) = ((⟨p.xk, c2⟩ : NdPw K).comp v).c := by
    by_cases hx : 1 < p.xk.length
    · obtain ⟨c2, b1, b2, b3⟩ := stepUp_nd a2 hx
      refine ⟨c2, by rw [if_pos hx]; exact b1, b2, fun v hv => ?_⟩
      rw [if_pos hx, a3 v hv, ← b3 v hv]
    · refine ⟨concatAx 0 c0 cn, by rw [if_neg hx]; rfl, a2, fun v hv => ?_⟩
      rw [if_neg hx, a3 v hv]
  obtain ⟨c, d1, d2, d3⟩ := integC_nd b2 hib lb hk
  refine ⟨c, ?_, d2, fun v hv => ?_⟩
  · unfold NdPw.integStep
    simp only [hn']
    rw [a1]
    show (_ >>= _) = _
    by_cases hx : 1 < p.xk.length
    · simp only [hx, if_true] at b1 ⊢
      simp only [bind, Except.bind] at b1 d1 ⊢
      split at b1
      · exact absurd b1 (by simp)
      · rename_i inc hinc
        rw [b1]
        exact d1
    · simp only [hx, if_false] at b1 ⊢
      simp only [pure, Except.pure, Except.ok.injEq] at b1
      subst b1
      exact d1
  · rw [← d3 v hv, ← b3 v hv]
    rfl

theorem integ_fold (hp : NdWF p n V) {c0 : NdArr K} (h0 : c0.shape = 1 :: (V ++ [p.xk.length + 1])) (hz : ∀ idx, c0.get idx = 0)
    {ib : ℕ} (hib : ib ≤ p.xk.length) (lb : K) {consts : NdArr K} (hc : consts.shape.tail = V) (L : List ℕ) :
    ∃ c, L.foldlM (fun c i => NdPw.integStep p.xk ib lb c0 c (consts.row i)) p.c = .ok c ∧ NdWF ⟨p.xk, c⟩ (n + L.length) V ∧
      ∀ v, ValidIdx V v → (L.map fun i => consts.get (i :: v)).foldl (PwPoly.integStep p.xk ib lb) (p.comp v).c = ((⟨p.xk, c⟩ : NdPw K).comp v).c := by
  induction L generalizing p n with
  | nil => exact ⟨p.c, rfl, hp, fun v _ => rfl⟩
  | cons i L ih =>
    obtain ⟨c, h1, h2, h3⟩ := integStep_nd hp h0 hz hib lb (kk := consts.row i) hc
    obtain ⟨c', h4, h5, h6⟩ := ih (p := ⟨p.xk, c⟩) h2 h0 hib
    refine ⟨c', by rw [List.foldlM_cons, h1]; exact h4, by rw [List.length_cons, show n + (L.length + 1) = n + 1 + L.length by omega]; exact h5, fun v hv => ?_⟩
    rw [← h6 v hv, List.map_cons, List.foldl_cons, ← h3 v hv]
    rfl

/-- the loop, once the constants are an array of shape `(m,) + shape` -/
theorem integ_of_consts (hp : NdWF p n V) {k consts : NdArr K} (hk : p.integConsts m k = .ok consts) (hs : consts.shape = m :: V) (lbnd : K) :
    ∃ r, p.integ m k lbnd = .ok r ∧ NdWF r (n + m) V ∧
      ∀ v, ValidIdx V v → (p.comp v).integ m ((List.range m).map fun i => consts.get (i :: v)) lbnd = .ok (r.comp v) := by
  obtain ⟨c, h1, h2, h3⟩ := integ_fold hp (c0 := ⟨p.c.shape.set 0 1, fun _ => 0⟩) (by rw [hp.shape]; rfl) (fun _ => rfl)
    (searchsorted_le p.xk lbnd) (lbnd - (mkXk0 p.xk).getD (searchsorted p.xk lbnd) 0) (consts := consts) (by rw [hs]; rfl) (List.range m)
  rw [List.length_range] at h2
  refine ⟨⟨p.xk, c⟩, ?_, h2, fun v hv => ?_⟩
  · unfold NdPw.integ
    simp only [bind, Except.bind]
    rw [hk]
    simp only [hs, List.headD_cons]
    rw [h1]
    rfl
  · unfold PwPoly.integ PwPoly.integConsts
    simp only [List.length_map, List.length_range, Nat.sub_self, List.replicate_zero, List.append_nil, if_true, bind, Except.bind]
    rw [(comp_WF_pn hp v).2.1]
    congr 1
    have := h3 v hv
    have hsh : c.shape.headD 0 = n + m := by
      have : c.shape = (n + m) :: (V ++ [p.xk.length + 1]) := h2.shape
      rw [this]; rfl
    show (⟨p.xk, n + m, (((List.range m).map fun i => consts.get (i :: v)).foldl (PwPoly.integStep p.xk (searchsorted p.xk lbnd)
      (lbnd - (mkXk0 p.xk).getD (searchsorted p.xk lbnd) 0)) (p.comp v).c)⟩ : PwPoly K K) = _
    rw [this, ← hsh]
    rfl

/-- the constants extended by zeros -/
theorem padK {k : NdArr K} {j : ℕ} {U : List ℕ} (hk : k.shape = j :: U) (hj : j ≤ m) :
    ∃ k' : NdArr K, (if k.shape.headD 0 < m then concatAx 0 k ⟨k.shape.set 0 (m - k.shape.headD 0), fun _ => 0⟩ else k) = k' ∧ k'.shape = m :: U ∧
      ∀ i < m, ∀ u, k'.get (i :: u) = if i < j then k.get (i :: u) else 0 := by
  have h0 : k.shape.headD 0 = j := by rw [hk]; rfl
  by_cases hjm : j < m
  · refine ⟨_, if_pos (by rw [h0]; exact hjm), ?_, fun i hi u => ?_⟩
    · show k.shape.set 0 (k.shape.getD 0 0 + (k.shape.set 0 (m - k.shape.headD 0)).getD 0 0) = _
      rw [hk]
      simp
      omega
    · show (if (i :: u).getD 0 0 < k.shape.getD 0 0 then k.get (i :: u) else (0 : K)) = _
      rw [hk]
      simp
  · exact ⟨_, if_neg (by rw [h0]; exact hjm), by rw [hk, show j = m by omega], fun i hi u => by rw [if_pos (by omega)]⟩

theorem consts_ok {k' : NdArr K} (h : Spec.Common [m :: V, k'.shape] (m :: V)) :
    ∃ consts, (⟨m :: V, fun _ => 0⟩ : NdArr K).zip (· + ·) k' = .ok consts ∧ consts.shape = m :: V ∧
      ∀ i v, consts.get (i :: v) = k'.get (bcIdx k'.shape (i :: v)) :=
  ⟨_, zip_ok_of h, rfl, fun i v => by show (0 : K) + _ = _; rw [zero_add]; rfl⟩

theorem integConsts_eq (hp : NdWF p n V) {k k1 k' : NdArr K} (h1 : (if k.shape.length = V.length then k.newAxis 0 else k) = k1) (hne : k1.shape ≠ [])
    (h2 : (if k1.shape.headD 0 < m then concatAx 0 k1 ⟨k1.shape.set 0 (m - k1.shape.headD 0), fun _ => 0⟩ else k1) = k') :
    p.integConsts m k = (⟨m :: V, fun _ => 0⟩ : NdArr K).zip (· + ·) k' := by
  have e1 : p.c.shape.length - 2 = V.length := by rw [hp.shape]; simp
  have e2 : (p.c.shape.drop 1).dropLast = V := by rw [hp.shape]; simp
  unfold NdPw.integConsts
  rw [e1, e2]
  simp only [h1, hne, h2, if_false]
  try rfl

theorem bcIdx_cons_same {U v : List ℕ} {N i : ℕ} (hl : U.length = v.length) (hi : i < N) : bcIdx (N :: U) (i :: v) = i :: bcIdx U v := by
  unfold bcIdx
  simp only [List.length_cons, hl, Nat.sub_self, List.drop_zero, List.zipWith_cons_cons]
  congr 1
  split <;> omega

/-- the constants `j ≤ m` rows of shape `U` -/
theorem integ_rows (hp : NdWF p n V) {U : List ℕ} (hl : U.length = V.length) (hU : Spec.Common [V, U] V) {k k1 : NdArr K}
    (h1 : (if k.shape.length = V.length then k.newAxis 0 else k) = k1) {j : ℕ} (hk : k1.shape = j :: U) (hj : j ≤ m) (lbnd : K) :
    ∃ r, p.integ m k lbnd = .ok r ∧ NdWF r (n + m) V ∧ r.xk = p.xk ∧
      ∀ v, ValidIdx V v → (p.comp v).integ m ((List.range j).map fun i => k1.get (i :: bcIdx U v)) lbnd = .ok (r.comp v) := by
  obtain ⟨k', a1, a2, a3⟩ := padK hk hj
  obtain ⟨consts, b1, b2, b3⟩ := consts_ok (m := m) (V := V) (k' := k') (by rw [a2]; exact (common_cons2 hU rfl hl m).1)
  have hc := integConsts_eq hp h1 (by rw [hk]; simp) a1
  rw [b1] at hc
  obtain ⟨r, c1, c2, c3⟩ := integ_of_consts hp hc b2 lbnd
  have hxk : r.xk = p.xk := by
    unfold NdPw.integ at c1
    simp only [bind, Except.bind, hc] at c1
    split at c1
    · simp at c1
    · simp only [pure, Except.pure, Except.ok.injEq] at c1
      rw [← c1]
  refine ⟨r, c1, c2, hxk, fun v hv => ?_⟩
  rw [← c3 v hv]
  unfold PwPoly.integ
  congr 1
  unfold PwPoly.integConsts
  have : (List.range j).map (fun i => k1.get (i :: bcIdx U v)) ++ List.replicate (m - j) 0 = (List.range m).map fun i => consts.get (i :: v) := by
    apply List.ext_getElem (by simp; omega)
    intro i h1 h2
    have hi : i < m := by simpa using h2
    have e : k'.get (i :: bcIdx U v) = if i < j then k1.get (i :: bcIdx U v) else 0 := a3 i hi _
    rw [List.getElem_map, List.getElem_range, b3, a2, bcIdx_cons_same (by rw [hl, hv.1]) hi, e]
    split
    · rw [List.getElem_append_left (by simpa)]
      simp
    · rw [List.getElem_append_right (by simp; omega)]
      simp
  simp only [List.length_map, List.length_range, Nat.sub_self, List.replicate_zero, List.append_nil, this]

/-- shapes of the constants which do not fit: the addition to the zeros, or the first `c[0] += ...`, fails -/
theorem integ_err (hp : NdWF p n V) {k k1 k' : NdArr K} (h1 : (if k.shape.length = V.length then k.newAxis 0 else k) = k1) (hne : k1.shape ≠ [])
    (h2 : (if k1.shape.headD 0 < m then concatAx 0 k1 ⟨k1.shape.set 0 (m - k1.shape.headD 0), fun _ => 0⟩ else k1) = k')
    (hm : 1 ≤ m) (hlen : k'.shape.length ≤ V.length + 1) (hfit : ¬ Spec.Common [m :: V, k'.shape] (m :: V))
    (hhd : k'.shape.length = V.length + 1 → k'.shape.headD 0 = m ∨ k'.shape.headD 0 = 1) (lbnd : K) : p.integ m k lbnd = .error .valueError := by
  have hc := integConsts_eq hp h1 hne h2
  by_cases hex : ∃ R, Spec.Common [m :: V, k'.shape] R
  · obtain ⟨R, hR⟩ := hex
    have hRl : R.length = V.length + 1 := by
      obtain ⟨u, hu, e⟩ := hR.maxlen
      have := hR.len (m :: V) (by simp)
      rw [List.length_cons] at this
      rcases List.mem_pair.1 hu with rfl | rfl
      · rw [← e]; simp
      · omega
    obtain ⟨N, V', rfl⟩ : ∃ N V', R = N :: V' := by
      cases R with
      | nil => simp at hRl
      | cons N V' => exact ⟨N, V', rfl⟩
    have hV' : V'.length = V.length := by simpa using hRl
    have hN : N = m := by
      obtain ⟨u, hu, e⟩ := hR.hit V.length
      rw [rdim_cons' N, if_pos hV'.symm] at e
      rcases List.mem_pair.1 hu with rfl | rfl
      · rw [rdim_cons', if_pos rfl] at e
        exact e.symm
      · have f := hR.fits (m :: V) (by simp) V.length
        rw [rdim_cons' N, if_pos hV'.symm, rdim_cons', if_pos rfl] at f
        rcases f with f | f
        · exact f.symm
        · by_cases hl : k'.shape.length = V.length + 1
          · obtain ⟨a, t, ht⟩ : ∃ a t, k'.shape = a :: t := by
              cases hk : k'.shape with
              | nil => rw [hk] at hl; simp at hl
              | cons a t => exact ⟨a, t, rfl⟩
            have := hhd hl
            rw [ht] at hl
            rw [ht, rdim_cons', if_pos (by simpa using hl.symm)] at e
            rw [ht, List.headD_cons] at this
            omega
          · rw [rdim_of_ge (by omega)] at e
            omega
    subst hN
    have hVV : V' ≠ V := by rintro rfl; exact hfit hR
    have hcV : Spec.Common [V, V'] V' := by
      refine ⟨by simp [hV'], ⟨V', by simp, rfl⟩, fun u hu i => ?_, fun i => ⟨V', by simp, rfl⟩⟩
      rcases List.mem_pair.1 hu with rfl | rfl
      · by_cases hi : i < u.length
        · have := hR.fits (N :: u) (by simp) i
          rwa [rdim_cons', rdim_cons', if_neg (by omega), if_neg (by omega)] at this
        · exact .inr (rdim_of_ge (by omega))
      · exact .inl rfl
    rw [zip_ok_of hR] at hc
    obtain ⟨cn, a1, a2, a3⟩ := integA_nd hp (c0 := ⟨p.c.shape.set 0 1, fun _ => 0⟩) (by rw [hp.shape]; rfl) (fun _ => rfl)
    have hn' : p.c.shape.headD 0 = n := by rw [hp.shape]; rfl
    -- the failing addition
    have key : ∀ (c kk : NdArr K), NdWF ⟨p.xk, c⟩ (n + 1) V → kk.shape = V' → ∀ lb ib, (do
        let y ← polyfunNd (c.atLast ib) ⟨[], fun _ => lb⟩
        let d ← kk.zip (· - ·) y
        let row ← (c.row 0).inplace (· + ·) (d.newAxis d.shape.length)
        c.setAt 0 0 row) = (Except.error .valueError : Except PyErr (NdArr K)) := by
      intro c kk hc hkk lb ib
      have hcs : c.shape = (n + 1) :: (V ++ [p.xk.length + 1]) := hc.shape
      have hsh : (c.atLast ib).shape = (n + 1) :: V := by
        show c.shape.dropLast = _
        rw [hcs]
        simp [List.dropLast_cons_of_ne_nil, List.dropLast_append_of_ne_nil]
      obtain ⟨y, y1, y2, y3⟩ := (C106_polyfun (c.atLast ib) ⟨[], fun _ => lb⟩).2.2 V (by rw [hsh]; simp) (by
        rw [hsh]
        have := common_append_pn V []
        simpa using this)
      have hd : kk.zip (· - ·) y = .ok ⟨V', fun idx => bget kk idx - bget y idx⟩ :=
        zip_ok_of (by rw [hkk, y2]; exact hcV.perm (List.Perm.swap ..))
      simp only [bind, Except.bind]
      rw [y1]
      simp only
      rw [hd]
      simp only
      have hrow : (c.row 0).shape = V ++ [p.xk.length + 1] := by show c.shape.tail = _; rw [hcs]; rfl
      have hna : ((⟨V', fun idx => bget kk idx - bget y idx⟩ : NdArr K).newAxis V'.length).shape = V' ++ [1] := by
        show V'.insertIdx V'.length 1 = _
        rw [List.insertIdx_length_self]
      have hCC : Spec.Common [V ++ [p.xk.length + 1], V' ++ [1]] (V' ++ [p.xk.length + 1]) := by
        refine ⟨?_, ⟨V ++ [p.xk.length + 1], by simp, by simp [hV']⟩, fun u hu i => ?_, fun i => ?_⟩
        · intro u hu
          rcases List.mem_pair.1 hu with rfl | rfl <;> simp [hV']
        · rcases List.mem_pair.1 hu with rfl | rfl
          · rw [rdim_snoc, rdim_snoc]
            split
            · exact .inl rfl
            · exact hcV.fits _ (by simp) _
          · rw [rdim_snoc, rdim_snoc]
            split
            · exact .inr rfl
            · exact .inl rfl
        · by_cases hi : i = 0
          · exact ⟨V ++ [p.xk.length + 1], by simp, by rw [rdim_snoc, rdim_snoc, if_pos hi, if_pos hi]⟩
          · exact ⟨V' ++ [1], by simp, by rw [rdim_snoc, rdim_snoc, if_neg hi, if_neg hi]⟩
      unfold inplace
      rw [zip_ok_of (by rw [hrow, hna]; exact hCC)]
      simp only [bind, Except.bind]
      rw [if_neg (by rw [hrow]; intro h; exact hVV (List.append_cancel_right h))]
      rfl
    have step : ∀ ib lb (kk : NdArr K), kk.shape = V' → NdPw.integStep p.xk ib lb ⟨p.c.shape.set 0 1, fun _ => 0⟩ p.c kk = .error .valueError := by
      intro ib lb kk hkk
      unfold NdPw.integStep
      simp only [hn']
      rw [a1]
      show (_ >>= _) = _
      by_cases hx : 1 < p.xk.length
      · obtain ⟨c2, b1, b2, -⟩ := stepUp_nd a2 hx
        have key := key c2 kk b2 hkk lb ib
        simp only [hx, if_true]
        simp only [bind, Except.bind] at b1 key ⊢
        split at b1
        · exact absurd b1 (by simp)
        · rename_i inc hinc
          rw [b1]
          exact key
      · simp only [hx, if_false]
        exact key _ kk a2 hkk lb ib
    unfold NdPw.integ
    simp only [bind, Except.bind, hc, List.headD_cons]
    obtain ⟨m', rfl⟩ : ∃ m', N = m' + 1 := ⟨N - 1, by omega⟩
    rw [List.range_succ_eq_map, List.foldlM_cons, step _ _ _ rfl]
    rfl
  · rw [zip_err hex] at hc
    unfold NdPw.integ
    simp only [bind, Except.bind, hc]

end NdAux

/-- **C108** `p.integ(m, k, lbnd)` of a function with components: with `k` an array of at most `m` constants for each component (shape `(j,) + U`,
`U` broadcasting to the shape of the values), the result has the same knots, degree increased by `m`, and each component is the integral of that
component with its own constants (for which C10 and C101 say that it is the continuous antiderivative). -/
theorem C108_integ (hp : NdWF p n V) {U : List ℕ} (hl : U.length = V.length) (hU : Spec.Common [V, U] V) {k : NdArr K} {j : ℕ} (hk : k.shape = j :: U)
    (hj : j ≤ m) (lbnd : K) :
    ∃ r, p.integ m k lbnd = .ok r ∧ NdWF r (n + m) V ∧ r.xk = p.xk ∧
      ∀ v, ValidIdx V v → (p.comp v).integ m ((List.range j).map fun i => k.get (i :: bcIdx U v)) lbnd = .ok (r.comp v) :=
  integ_rows hp hl hU (by rw [if_neg (by rw [hk, List.length_cons]; omega)]) hk hj lbnd

/-- **C108** `k` without the axis of the integrations (shape `U`): the constants of the first integration, for `m ≥ 1`. -/
theorem C108_integ_one (hp : NdWF p n V) {k : NdArr K} (hl : k.shape.length = V.length) (hU : Spec.Common [V, k.shape] V) (hm : 1 ≤ m) (lbnd : K) :
    ∃ r, p.integ m k lbnd = .ok r ∧ NdWF r (n + m) V ∧ r.xk = p.xk ∧
      ∀ v, ValidIdx V v → (p.comp v).integ m [bget k v] lbnd = .ok (r.comp v) := by
  obtain ⟨r, h1, h2, h3, h4⟩ := integ_rows hp (k1 := k.newAxis 0) hl hU (by rw [if_pos hl]) (j := 1) rfl hm lbnd
  exact ⟨r, h1, h2, h3, h4⟩

/-- **C108** Values whose number of axes is 1: a list of `j` constants is not taken as the constants of `j` integrations but as the components of the
first constant; the default `k=()` and every list whose length is neither 1 nor the number of components is a ValueError. -/
theorem C108_list1_fails {d j : ℕ} (hp : NdWF p n [d]) (hd : 1 ≤ d) (hm : 1 ≤ m) {k : NdArr K} (hk : k.shape = [j]) (hj : j ≠ 1) (hjd : j ≠ d)
    (lbnd : K) : p.integ m k lbnd = .error .valueError := by
  obtain ⟨k', a1, a2, -⟩ := padK (k := k.newAxis 0) (j := 1) (U := [j]) (m := m) (by show k.shape.insertIdx 0 1 = _; rw [hk]; rfl) hm
  refine integ_err hp (k1 := k.newAxis 0) (by rw [if_pos (by rw [hk]; rfl)]) (by show k.shape.insertIdx 0 1 ≠ _; rw [hk]; simp) a1 hm (by rw [a2]; rfl)
    ?_ (fun _ => .inl (by rw [a2]; rfl)) lbnd
  rw [a2]
  intro h
  have := h.fits [m, j] (by simp) 0
  simp [rdim] at this
  omega

/-- **C108** In particular the default `k=()` always fails for values with one axis (of length at least 1). -/
theorem C108_default1_fails {d : ℕ} (hp : NdWF p n [d]) (hd : 1 ≤ d) (hm : 1 ≤ m) {k : NdArr K} (hk : k.shape = [0]) (lbnd : K) :
    p.integ m k lbnd = .error .valueError :=
  C108_list1_fails hp hd hm hk (by omega) (by omega) lbnd

/-- **C108** Values with two or more axes, `k` a list of `j ≤ m` constants as documented, `m ≥ 2`: a ValueError unless the last axis of the values
happens to have length `m`. -/
theorem C108_list2_fails {V0 : List ℕ} {d j : ℕ} (hp : NdWF p n (V0 ++ [d])) (hV : V0 ≠ []) (hm : 2 ≤ m) (hd : d ≠ m) {k : NdArr K} (hk : k.shape = [j])
    (hj : j ≤ m) (lbnd : K) : p.integ m k lbnd = .error .valueError := by
  have hV0 : 1 ≤ V0.length := List.length_pos_of_ne_nil hV
  obtain ⟨k', a1, a2, -⟩ := padK (k := k) (j := j) (U := []) hk hj
  refine integ_err hp (k1 := k) (by rw [if_neg (by rw [hk]; simp; omega)]) (by rw [hk]; simp) a1 (by omega) (by rw [a2]; simp)
    ?_ (fun _ => .inl (by rw [a2]; rfl)) lbnd
  rw [a2]
  intro h
  have := h.fits [m] (by simp) 0
  rw [← List.cons_append, rdim_snoc] at this
  simp [rdim] at this
  omega

/-- **C108** and when it has length `m`, the constants are distributed over the last axis of the values instead of over the integrations: every
integration of component `v` uses the constant number `v[-1]` (0 beyond the list). -/
theorem C108_list2_wrong {V0 : List ℕ} {j : ℕ} (hp : NdWF p n (V0 ++ [m])) (hV : V0 ≠ []) {k : NdArr K} (hk : k.shape = [j])
    (hj : j ≤ m) (lbnd : K) :
    ∃ r, p.integ m k lbnd = .ok r ∧ NdWF r (n + m) (V0 ++ [m]) ∧ ∀ v a, ValidIdx V0 v → a < m →
      (p.comp (v ++ [a])).integ m (List.replicate m (if a < j then k.get [a] else 0)) lbnd = .ok (r.comp (v ++ [a])) := by
  have hV0 : 1 ≤ V0.length := List.length_pos_of_ne_nil hV
  obtain ⟨k', a1, a2, a3⟩ := padK (k := k) (j := j) (U := []) hk hj
  have hC : Spec.Common [m :: (V0 ++ [m]), k'.shape] (m :: (V0 ++ [m])) := by
    rw [a2]
    have := common_append_pn (m :: V0) [m]
    simpa using this
  obtain ⟨consts, b1, b2, b3⟩ := consts_ok hC
  have hc := integConsts_eq hp (k := k) (k1 := k) (by rw [if_neg (by rw [hk]; simp; omega)]) (by rw [hk]; simp) a1
  rw [b1] at hc
  obtain ⟨r, c1, c2, c3⟩ := integ_of_consts hp hc b2 lbnd
  refine ⟨r, c1, c2, fun v a hv ha => ?_⟩
  rw [← c3 (v ++ [a]) (validIdx_append_nd hv (valid1 ha))]
  congr 1
  apply List.ext_getElem (by simp)
  intro i h1 h2
  have hb : bcIdx [m] (i :: (v ++ [a])) = [a] := by
    unfold bcIdx
    rw [show (i :: (v ++ [a])).length - [m].length = (i :: v).length by simp, ← List.cons_append, List.drop_left]
    simp
    omega
  have e : k'.get [a] = _ := a3 a ha []
  rw [List.getElem_map, b3, a2, List.getElem_range, hb, e]
  simp

/-- **C108** Values with two or more axes and `m = 1`: one number (or none, the default `k=()`) is the constant of every component. -/
theorem C108_list2_one (hp : NdWF p n V) (hV : 2 ≤ V.length) {k : NdArr K} {j : ℕ} (hk : k.shape = [j]) (hj : j ≤ 1) (lbnd : K) :
    ∃ r, p.integ 1 k lbnd = .ok r ∧ NdWF r (n + 1) V ∧ ∀ v, ValidIdx V v →
      (p.comp v).integ 1 ((List.range j).map fun i => k.get [i]) lbnd = .ok (r.comp v) := by
  obtain ⟨k', a1, a2, a3⟩ := padK (k := k) (j := j) (U := []) hk hj
  have hC : Spec.Common [1 :: V, k'.shape] (1 :: V) := by
    rw [a2]
    refine ⟨by simp, ⟨1 :: V, by simp, rfl⟩, fun u hu i => ?_, fun i => ⟨1 :: V, by simp, rfl⟩⟩
    rcases List.mem_pair.1 hu with rfl | rfl
    · exact .inl rfl
    · right
      cases i with
      | zero => rfl
      | succ i => exact rdim_of_ge (by simp)
  obtain ⟨consts, b1, b2, b3⟩ := consts_ok hC
  have hc := integConsts_eq hp (k := k) (k1 := k) (by rw [if_neg (by rw [hk]; simp; omega)]) (by rw [hk]; simp) a1
  rw [b1] at hc
  obtain ⟨r, c1, c2, c3⟩ := integ_of_consts hp hc b2 lbnd
  refine ⟨r, c1, c2, fun v hv => ?_⟩
  rw [← c3 v hv]
  have hb : bcIdx [1] (0 :: v) = [0] := by
    unfold bcIdx
    obtain ⟨w, a, hw⟩ : ∃ w a, (0 :: v) = w ++ [a] := ⟨(0 :: v).dropLast, (0 :: v).getLast (by simp), (List.dropLast_append_getLast (by simp)).symm⟩
    rw [hw, show (w ++ [a]).length - [1].length = w.length by simp, List.drop_left]
    simp
  have e : k'.get [0] = _ := a3 0 (by omega) []
  have hcons : consts.get (0 :: v) = if 0 < j then k.get [0] else 0 := by rw [b3, a2, hb, e]
  unfold PwPoly.integ PwPoly.integConsts
  rcases (by omega : j = 0 ∨ j = 1) with rfl | rfl <;> simp [hcons]

/-- **C108** What the user gets, without reference to the scalar `integ`: `P = p.integ(1, k, lbnd)` with one constant per component has at `lbnd` the
values `k`, and its derivative is `p` again, element by element, for every array of arguments. -/
theorem C108_antiderivative (hp : NdWF p n V) {k : NdArr K} (hl : k.shape.length = V.length) (hU : Spec.Common [V, k.shape] V) (lbnd : K) (x : NdArr K) :
    ∃ P D y0 y y', p.integ 1 k lbnd = .ok P ∧ P.deriv 1 = .ok D ∧ P.call ⟨[], fun _ => lbnd⟩ 0 = .ok y0 ∧ D.call x 0 = .ok y ∧ p.call x 0 = .ok y' ∧
      y0.shape = V ∧ (∀ v, ValidIdx V v → y0.get v = bget k v) ∧ y.shape = V ++ x.shape ∧ y'.shape = V ++ x.shape ∧
      ∀ v i, ValidIdx V v → ValidIdx x.shape i → y.get (v ++ i) = y'.get (v ++ i) := by
  obtain ⟨P, h1, h2, h3, h4⟩ := C108_integ_one hp hl hU le_rfl lbnd
  obtain ⟨D, d1, d2, -, d4⟩ := C107_deriv h2 1
  obtain ⟨y0, a1, a2, a3⟩ := (C106_call h2 ⟨[], fun _ => lbnd⟩).1
  obtain ⟨y, b1, b2, b3⟩ := (C106_call d2 x).1
  obtain ⟨y', c1, c2, c3⟩ := (C106_call hp x).1
  refine ⟨P, D, y0, y, y', h1, d1, a1, b1, c1, by simpa using a2, fun v hv => ?_, b2, c2, fun v i hv hi => ?_⟩
  · obtain ⟨Q, q1, q2, q3, q4, -⟩ := C10_integ_once (comp_WF_pn hp v).1 (bget k v) lbnd
    have := h4 v hv
    rw [q1, Except.ok.injEq] at this
    subst this
    have := a3 v [] hv ⟨rfl, by simp⟩
    rw [List.append_nil] at this
    rw [this, q3]
  · obtain ⟨Q, q1, q2, q3, q4, -⟩ := C10_integ_once (comp_WF_pn hp v).1 (bget k v) lbnd
    have := h4 v hv
    rw [q1, Except.ok.injEq] at this
    subst this
    rw [b3 v i hv hi, c3 v i hv hi, ← q4, ← d4 v hv]

/-- **C108** and over the real numbers it is the integral: element `v, i` of `p.integ(1, k, lbnd)(x)` is `k[v] + ∫_lbnd^{x[i]} p(t)[v] dt`. -/
theorem C108_integral {p : NdPw ℝ} {n : ℕ} {V : List ℕ} (hp : NdWF p n V) {k : NdArr ℝ} (hl : k.shape.length = V.length) (hU : Spec.Common [V, k.shape] V)
    (lbnd : ℝ) (x : NdArr ℝ) (f : List ℕ → ℝ → ℝ)
    (hf : ∀ v t, ValidIdx V v → ∃ y, p.call ⟨[], fun _ => t⟩ 0 = .ok y ∧ y.get v = f v t) :
    ∃ P y, p.integ 1 k lbnd = .ok P ∧ P.call x 0 = .ok y ∧ y.shape = V ++ x.shape ∧
      ∀ v i, ValidIdx V v → ValidIdx x.shape i → y.get (v ++ i) = bget k v + ∫ t in lbnd..(x.get i), f v t := by
  obtain ⟨P, h1, h2, h3, h4⟩ := C108_integ_one hp hl hU le_rfl lbnd
  obtain ⟨y, b1, b2, b3⟩ := (C106_call h2 x).1
  refine ⟨P, y, h1, b1, b2, fun v i hv hi => ?_⟩
  obtain ⟨Q, q1, q2⟩ := C10_integral (comp_WF_pn hp v).1 (bget k v) lbnd
  have := h4 v hv
  rw [q1, Except.ok.injEq] at this
  subst this
  rw [b3 v i hv hi, q2]
  congr 2
  funext t
  obtain ⟨z, z1, z2⟩ := hf v t hv
  obtain ⟨z', a1, -, a3⟩ := (C106_call hp ⟨[], fun _ => t⟩).1
  rw [z1, Except.ok.injEq] at a1
  subst a1
  have := a3 v [] hv ⟨rfl, by simp⟩
  rw [List.append_nil] at this
  rw [← z2, this]

/-- **C107** `p.addknots(xk)` acts on every component as on a scalar function (to which C14 applies), with the same knots for all. -/
theorem C107_addknots (hp : NdWF p n V) {tol : K} (ht : 0 ≤ tol) {xk : List K} (hx : Knots xk) :
    ∃ r, p.addknots tol xk = .ok r ∧ NdWF r n V ∧ ∀ v, ValidIdx V v → (p.comp v).addknots tol xk = .ok (r.comp v) := by
  have hs : ∀ v, (p.comp v).addknots tol xk = match PwPoly.allknotsGo tol (p.xk, false) [xk] with
    | .error e => .error e
    | .ok (_, false) => .ok (p.comp v)
    | .ok (u, true) => if u.length = p.xk.length then .ok (p.comp v) else .ok ((p.comp v).addknotsRaw u) := fun _ => rfl
  rcases allknotsGo_one ht (⟨hp.ne, hp.inc⟩ : Knots p.xk) hx with ⟨h1, -⟩ | ⟨u, h1, -, hu, -⟩
  · exact ⟨p, by unfold NdPw.addknots; rw [h1], hp, fun v _ => by rw [hs, h1]⟩
  · obtain ⟨a, a1, a2, a3, a4⟩ := addknotsRaw_nd hp hu
    by_cases hl : u.length = p.xk.length
    · exact ⟨p, by unfold NdPw.addknots; rw [h1]; simp only; rw [if_pos hl], hp, fun v _ => by rw [hs, h1]; simp only; rw [if_pos hl]⟩
    · exact ⟨a, by unfold NdPw.addknots; rw [h1]; simp only; rw [if_neg hl]; exact a1, a3,
        fun v hv => by rw [hs, h1]; simp only; rw [if_neg hl, a4 v hv]⟩

/-! ### instances -/

example : ∃ r, ndEx.addknots (PwPoly.defaultTol ℚ) [1 / 2, 3] = .ok r ∧ NdWF r 2 [2] := by
  obtain ⟨r, h1, h2, -⟩ := C107_addknots ndEx_WF (tol := PwPoly.defaultTol ℚ) defaultTol_nonneg (xk := [1 / 2, 3]) ⟨by simp, by norm_num⟩
  exact ⟨r, h1, h2⟩

/-- the hypotheses of `C108_integral` are met by every function with components -/
example {p : NdPw ℝ} {n : ℕ} {V : List ℕ} (hp : NdWF p n V) (x : NdArr ℝ) :
    ∃ P y, p.integ 1 ⟨V, fun _ => 1⟩ 0 = .ok P ∧ P.call x 0 = .ok y ∧ y.shape = V ++ x.shape := by
  obtain ⟨P, y, h1, h2, h3, -⟩ := C108_integral hp (k := ⟨V, fun _ => 1⟩) rfl (common_refl _) 0 x (fun v t => (p.comp v).call t) (fun v t hv => by
    obtain ⟨z, z1, -, z3⟩ := (C106_call hp ⟨[], fun _ => t⟩).1
    exact ⟨z, z1, by simpa using z3 v [] hv ⟨rfl, by simp⟩⟩)
  exact ⟨P, y, h1, h2, h3⟩

/-- two integrations of a function with two components, constants given for the first integration of each component only -/
example : ∃ r, ndEx.integ 2 ⟨[1, 2], fun idx => idx.getD 1 0⟩ (1 / 2) = .ok r ∧ NdWF r 4 [2] := by
  obtain ⟨r, h1, h2, -⟩ := C108_integ ndEx_WF (U := [2]) rfl (common_refl _) (k := ⟨[1, 2], fun idx => idx.getD 1 0⟩) (j := 1) rfl (m := 2) (by omega) (1 / 2)
  exact ⟨r, h1, h2⟩

example : ∃ r, ndEx.integ 1 ⟨[2], fun idx => idx.getD 0 0⟩ (1 / 2) = .ok r ∧ NdWF r 3 [2] := by
  obtain ⟨r, h1, h2, -⟩ := C108_integ_one ndEx_WF (k := ⟨[2], fun idx => idx.getD 0 0⟩) rfl (common_refl _) (m := 1) le_rfl (1 / 2)
  exact ⟨r, h1, h2⟩

/-- the documented default fails for these two components -/
example : ndEx.integ 1 ⟨[0], fun _ => 0⟩ 0 = .error .valueError := C108_default1_fails ndEx_WF (by norm_num) le_rfl rfl 0

/-- components of shape (3, 1), two integrations with the documented default -/
example : ndEx2.integ 2 ⟨[0], fun _ => 0⟩ 0 = .error .valueError :=
  C108_list2_fails (V0 := [3]) (d := 1) ndEx2_WF (by simp) le_rfl (by norm_num) rfl (by omega) 0

example : ∃ r, ndEx2.integ 1 ⟨[0], fun _ => 0⟩ 0 = .ok r ∧ NdWF r 2 [3, 1] := by
  obtain ⟨r, h1, h2, -⟩ := C108_list2_one ndEx2_WF (by simp) (k := ⟨[0], fun _ => 0⟩) (j := 0) rfl (by omega) 0
  exact ⟨r, h1, h2⟩

/-- components of shape (1, 2), constants [5, 7] for two integrations: component (0, 0) is integrated with 5 both times -/
example : ∃ r, (⟨[0, 1], ⟨[1, 1, 2, 3], fun _ => 1⟩⟩ : NdPw ℚ).integ 2 ⟨[2], fun idx => if idx = [0] then 5 else 7⟩ 0 = .ok r ∧
    ((⟨[0, 1], ⟨[1, 1, 2, 3], fun _ => 1⟩⟩ : NdPw ℚ).comp [0, 0]).integ 2 [5, 5] 0 = .ok (r.comp [0, 0]) := by
  obtain ⟨r, h1, -, h2⟩ := C108_list2_wrong (p := ⟨[0, 1], ⟨[1, 1, 2, 3], fun _ => 1⟩⟩) (n := 1) (m := 2) (V0 := [1]) ⟨by simp, by simp, by norm_num, rfl⟩ (by simp)
    (k := ⟨[2], fun idx => if idx = [0] then (5 : ℚ) else 7⟩) (j := 2) rfl le_rfl 0
  refine ⟨r, h1, ?_⟩
  have := h2 [0] 0 ⟨rfl, by simp⟩ (by norm_num)
  simpa using this

end Npplus
