import Verif.Model.PwInitNd
import Verif.Props.PwNd
import Verif.Props.PwInit

/-!
# Property C109: the PwPoly constructor and `reknot` with n-dimensional data
-/

set_option linter.unusedSectionVars false
namespace Npplus
open Spec NdArr NdAux
open PwPoly (mkXk0 diffs)

variable {K : Type} [Field K] [LinearOrder K] [IsStrictOrderedRing K]
variable {n m : ℕ} {V : List ℕ}

namespace NdAux

/-- `a` has shape `(N,) + V + (L,)` and elements `f k v i` -/
structure Rep (V : List ℕ) (a : NdArr K) (N L : ℕ) (f : ℕ → List ℕ → ℕ → K) : Prop where
  shape : a.shape = N :: (V ++ [L])
  get : ∀ k < N, ∀ v, ValidIdx V v → ∀ i < L, a.get (k :: (v ++ [i])) = f k v i

/-- `a` has shape `(N,) + (1, ..., 1) + (L,)` and elements `g k i` -/
structure RepD (V : List ℕ) (a : NdArr K) (N L : ℕ) (g : ℕ → ℕ → K) : Prop where
  shape : a.shape = N :: (List.replicate V.length 1 ++ [L])
  get : ∀ k < N, ∀ i < L, a.get (k :: (List.replicate V.length 0 ++ [i])) = g k i

theorem bcIdx_rep1 {v : List ℕ} (hv : v.length = V.length) : bcIdx (List.replicate V.length 1) v = List.replicate V.length 0 := by
  have := bcIdx_ones (V := []) (r := v) (j := V.length) (by simp [hv])
  simp only [List.append_nil] at this
  rw [this]
  simp [bcIdx]

theorem common_D (V : List ℕ) (L : ℕ) : Spec.Common [V ++ [L], List.replicate V.length 1 ++ [L]] (V ++ [L]) := by
  have h : Spec.Common [V, List.replicate V.length 1] V := by
    refine ⟨by simp, ⟨V, by simp, rfl⟩, fun u hu k => ?_, fun k => ⟨V, by simp, rfl⟩⟩
    rcases List.mem_pair.1 hu with rfl | rfl
    · exact .inl rfl
    · right
      have := rdim_ones V.length [] k
      rw [List.append_nil] at this
      rw [this]
      exact rdim_of_ge (by simp)
  exact common_snoc h L

theorem common_ND (V : List ℕ) (N L : ℕ) : Spec.Common [N :: (V ++ [L]), N :: (List.replicate V.length 1 ++ [L])] (N :: (V ++ [L])) :=
  (common_cons2 (common_D V L) rfl (by simp) N).1

theorem bget_Rep {a : NdArr K} {N L : ℕ} {f} (h : Rep V a N L f) {k i : ℕ} {v : List ℕ} (hk : k < N) (hv : ValidIdx V v) (hi : i < L) :
    bget a (k :: (v ++ [i])) = f k v i := by
  rw [bget_self (by rw [h.shape]; exact validIdx_cons_iff.2 ⟨hk, validIdx_append_nd hv (valid1 hi)⟩), h.get k hk v hv i hi]

theorem bget_RepD {a : NdArr K} {N L : ℕ} {g} (h : RepD V a N L g) {k i : ℕ} {v : List ℕ} (hk : k < N) (hv : v.length = V.length) (hi : i < L) :
    bget a (k :: (v ++ [i])) = g k i := by
  unfold bget
  rw [h.shape, bcIdx_big (by simp [hv]) hk hi, bcIdx_rep1 hv, h.get k hk i hi]

theorem inplace_Rep {a b : NdArr K} {N L : ℕ} {f g} (op : K → K → K) (ha : Rep V a N L f) (hb : RepD V b N L g) :
    ∃ r, a.inplace op b = .ok r ∧ Rep V r N L fun k v i => op (f k v i) (g k i) := by
  refine ⟨_, inplace_ok_pn (by rw [ha.shape, hb.shape]; exact common_ND V N L), ha.shape, fun k hk v hv i hi => ?_⟩
  show op (bget a _) (bget b _) = _
  rw [bget_Rep ha hk hv hi, bget_RepD hb hk hv.1 hi]

theorem inplace_RepD {a b : NdArr K} {N L : ℕ} {f g} (op : K → K → K) (ha : RepD V a N L f) (hb : RepD V b N L g) :
    ∃ r, a.inplace op b = .ok r ∧ RepD V r N L fun k i => op (f k i) (g k i) := by
  refine ⟨_, inplace_ok_pn (by rw [ha.shape, hb.shape]; exact common_refl _), ha.shape, fun k hk i hi => ?_⟩
  show op (bget a _) (bget b _) = _
  rw [bget_RepD ha hk (by simp) hi, bget_RepD hb hk (by simp) hi]

theorem zip_Rep {a b : NdArr K} {N L : ℕ} {f g} (op : K → K → K) (ha : Rep V a N L f) (hb : Rep V b N L g) :
    ∃ r, a.zip op b = .ok r ∧ Rep V r N L fun k v i => op (f k v i) (g k v i) := by
  refine ⟨_, zip_ok_of (by rw [ha.shape, hb.shape]; exact common_refl _), rfl, fun k hk v hv i hi => ?_⟩
  show op (bget a _) (bget b _) = _
  rw [bget_Rep ha hk hv hi, bget_Rep hb hk hv hi]

theorem map_Rep {a : NdArr K} {N L : ℕ} {f} (φ : K → K) (ha : Rep V a N L f) : Rep V (a.map φ) N L fun k v i => φ (f k v i) :=
  ⟨ha.shape, fun k hk v hv i hi => by show φ _ = _; rw [ha.get k hk v hv i hi]⟩

theorem map_RepD {a : NdArr K} {N L : ℕ} {f} (φ : K → K) (ha : RepD V a N L f) : RepD V (a.map φ) N L fun k i => φ (f k i) :=
  ⟨ha.shape, fun k hk i hi => by show φ _ = _; rw [ha.get k hk i hi]⟩

theorem slice_Rep {a : NdArr K} {N L : ℕ} {f} (ha : Rep V a N L f) (lo len : ℕ) (h : lo + len ≤ L) :
    Rep V (a.sliceLast lo len) N len fun k v i => f k v (i + lo) :=
  ⟨sliceLast_shape ha.shape lo len, fun k hk v hv i hi => by
    rw [sliceLast_get ha.shape _ _ _ _ hv.1, ha.get k hk v hv _ (by omega)]⟩

theorem concat0_Rep {a b : NdArr K} {N M L : ℕ} {f g} (ha : Rep V a N L f) (hb : Rep V b M L g) :
    ∃ r, concatE 0 a b = .ok r ∧ Rep V r (N + M) L fun k v i => if k < N then f k v i else g (k - N) v i := by
  refine ⟨concatAx 0 a b, ?_, ?_, fun k hk v hv i hi => ?_⟩
  · unfold concatE
    rw [if_pos (by rw [ha.shape, hb.shape]; simp)]
  · show a.shape.set 0 (a.shape.getD 0 0 + b.shape.getD 0 0) = _
    rw [ha.shape, hb.shape]
    simp
  · show (if (k :: (v ++ [i])).getD 0 0 < a.shape.getD 0 0 then a.get (k :: (v ++ [i])) else
      b.get ((k :: (v ++ [i])).set 0 ((k :: (v ++ [i])).getD 0 0 - a.shape.getD 0 0))) = _
    rw [ha.shape]
    simp only [List.getD_cons_zero, List.set_cons_zero]
    split
    · rw [ha.get k (by assumption) v hv i hi]
    · rw [hb.get _ (by omega) v hv i hi]

theorem eraseIdx_last {α : Type} (l : List α) (a : α) : (l ++ [a]).eraseIdx l.length = l := by
  rw [List.eraseIdx_append_of_length_le le_rfl]
  simp

theorem concatL_Rep {a b : NdArr K} {N L M : ℕ} {f g} (ha : Rep V a N L f) (hb : Rep V b N M g) :
    ∃ r, concatE (V.length + 1) a b = .ok r ∧ Rep V r N (L + M) fun k v i => if i < L then f k v i else g k v (i - L) := by
  have gd : ∀ (L : ℕ), (N :: (V ++ [L])).getD (V.length + 1) 0 = L := by
    intro L
    rw [List.getD_cons_succ, List.getD_append_right _ _ _ _ le_rfl]
    simp
  refine ⟨concatAx (V.length + 1) a b, ?_, ?_, fun k hk v hv i hi => ?_⟩
  · unfold concatE
    rw [if_pos]
    rw [ha.shape, hb.shape]
    refine ⟨by simp, ?_⟩
    rw [List.eraseIdx_cons_succ, List.eraseIdx_cons_succ, eraseIdx_last, eraseIdx_last]
  · show a.shape.set _ (a.shape.getD _ 0 + b.shape.getD _ 0) = _
    rw [ha.shape, hb.shape, gd, gd, List.set_cons_succ, List.set_append_right _ _ le_rfl]
    simp
  · show (if (k :: (v ++ [i])).getD (V.length + 1) 0 < a.shape.getD (V.length + 1) 0 then a.get (k :: (v ++ [i])) else
      b.get ((k :: (v ++ [i])).set (V.length + 1) ((k :: (v ++ [i])).getD (V.length + 1) 0 - a.shape.getD (V.length + 1) 0))) = _
    have e : (k :: (v ++ [i])).getD (V.length + 1) 0 = i := by
      rw [List.getD_cons_succ, ← hv.1, List.getD_append_right _ _ _ _ le_rfl]
      simp
    have e2 : ∀ j, (k :: (v ++ [i])).set (V.length + 1) j = k :: (v ++ [j]) := by
      intro j
      rw [List.set_cons_succ, ← hv.1, List.set_append_right _ _ le_rfl]
      simp
    rw [e, e2, ha.shape, gd]
    split
    · rw [ha.get k hk v hv i (by assumption)]
    · rw [hb.get k hk v hv _ (by omega)]

theorem zip_add_zero_RepD {V : List ℕ} {N L : ℕ} (g : ℕ → K) (d : NdArr K) (hs : d.shape = List.replicate V.length 1 ++ [L])
    (hg : ∀ i < L, d.get (List.replicate V.length 0 ++ [i]) = g i) :
    ∃ r, d.zip (· + ·) ⟨N :: d.shape, fun _ => (0 : K)⟩ = .ok r ∧ RepD V r N L fun _ i => g i := by
  refine ⟨_, zip_ok_of (sh := N :: d.shape) ((common_append_pn [N] d.shape).perm (List.Perm.swap ..)), by rw [hs], fun k hk i hi => ?_⟩
  show bget d _ + (0 : K) = _
  rw [add_zero]
  unfold bget
  rw [hs, bcIdx_row (by simp) hi, bcIdx_rep1 (by simp), hg i hi]

theorem setRow_one_RepD {a : NdArr K} {N L : ℕ} {g} (ha : RepD V a N L g) :
    ∃ r, a.setAt 0 0 ⟨[], fun _ => 1⟩ = .ok r ∧ RepD V r N L fun k i => if k = 0 then 1 else g k i := by
  refine ⟨⟨a.shape, fun idx => if idx.getD 0 0 = 0 then 1 else a.get idx⟩, ?_, ha.shape, fun k hk i hi => ?_⟩
  · unfold setAt
    rw [if_pos]
    unfold canAssign
    simp [rdim]
  · simp only [List.getD_cons_zero]
    rw [ha.get k hk i hi]

theorem cumprod_RepD {a : NdArr K} {N L : ℕ} {d : ℕ → K} (ha : RepD V a N L fun k i => if k = 0 then 1 else d i) :
    RepD V a.cumprod0 N L fun k i => d i ^ k := by
  refine ⟨ha.shape, fun k hk i hi => ?_⟩
  show (Nat.rec (a.get ((k :: (List.replicate V.length 0 ++ [i])).set 0 0))
    (fun j r => r * a.get ((k :: (List.replicate V.length 0 ++ [i])).set 0 (j + 1))) k : K) = _
  simp only [List.set_cons_zero]
  have : ∀ j < N, (Nat.rec (a.get (0 :: (List.replicate V.length 0 ++ [i]))) (fun j r => r * a.get ((j + 1) :: (List.replicate V.length 0 ++ [i]))) j : K) = d i ^ j := by
    intro j hj
    induction j with
    | zero => simp only [ha.get 0 (by omega) i hi]; simp
    | succ j ih =>
      have := ih (by omega)
      simp only [ha.get (j + 1) hj i hi, this]
      simp [pow_succ]
  exact this k hk

theorem rowsDot_Rep {a : NdArr K} {N L : ℕ} {f} (ha : Rep V a N L f) (M : Matrix (Fin N) (Fin N) K) :
    Rep V (rowsDot M a) N L fun k v i => if hk : k < N then ((List.finRange N).map fun j => M ⟨k, hk⟩ j * f j.val v i).sum else 0 := by
  refine ⟨ha.shape, fun k hk v hv i hi => ?_⟩
  show (if hi : k < N then ((List.finRange N).map fun j => M ⟨k, hi⟩ j * a.get (j.val :: (v ++ [i]))).sum else 0) = _
  rw [dif_pos hk, dif_pos hk]
  congr 1
  refine List.map_congr_left fun j _ => ?_
  rw [ha.get j.val j.isLt v hv i hi]

theorem hermite_getD (inv : InvFun K) (h : ℕ) (dx : K) (l r : ℕ → K) (z : List K) (k : ℕ) (hk : k < 2 * (h + 1) + z.length) :
    (PwPoly.hermite inv h dx ((List.range (h + 1)).map l) ((List.range (h + 1)).map r) z).getD k 0 =
      if k < h + 1 then l k
      else if hk : k - (h + 1) < h + 1 then
        (1 / dx ^ (h + 1 + (k - (h + 1)))) * ((List.finRange (h + 1)).map fun j => inv (h + 1) (PwPoly.twoSided K h) ⟨k - (h + 1), hk⟩ j *
          (dx ^ j.val * (r j.val - (polyddx ((List.range (h + 1)).map l ++ List.replicate (h + 1) 0 ++ z) dx h).getD j.val 0))).sum
      else z.getD (k - 2 * (h + 1)) 0 := by
  unfold PwPoly.hermite PwPoly.matDot
  simp only
  split_ifs with h1 h2
  · rw [List.append_assoc, List.getD_append _ _ _ _ (by simpa using h1), List.getD_eq_getElem _ _ (by simpa using h1)]
    simp
  · rw [List.append_assoc, List.getD_append_right _ _ _ _ (by simp; omega), List.length_map, List.length_range,
      List.getD_append _ _ _ _ (by simpa using h2), List.getD_eq_getElem _ _ (by simpa using h2), List.getElem_mapIdx, List.getElem_ofFn, smul_eq_mul]
    congr 2
    refine List.map_congr_left fun j _ => ?_
    have hl : (polyddx ((List.range (h + 1)).map l ++ List.replicate (h + 1) 0 ++ z) dx h).length = h + 1 := length_polyddx_nd _ _ _
    rw [smul_eq_mul, List.getD_eq_getElem _ _ (by rw [List.length_mapIdx, List.length_zipWith, hl]; simp; omega), List.getElem_mapIdx, List.getElem_zipWith, smul_eq_mul,
      List.getD_eq_getElem _ _ (by rw [hl]; exact j.isLt)]
    simp
  · rw [List.getD_append_right _ _ _ _ (by simp; omega)]
    congr 1
    simp
    omega

/-- the rows of a data array at the component `v` -/
def _root_.Npplus.Spec.rowsAt (a : NdArr K) (v : List ℕ) : List (List K) :=
  (List.range (a.shape.headD 0)).map fun k => (List.range (a.shape.getD (a.shape.length - 1) 0)).map fun i => a.get (k :: (v ++ [i]))

/-- a data array at the component `v`: `a[v, :]` -/
def _root_.Npplus.Spec.rowAt (v : List ℕ) (a : NdArr K) : List K :=
  (List.range (a.shape.getD (a.shape.length - 1) 0)).map fun i => a.get (v ++ [i])

theorem rowsAt_Rep {a : NdArr K} {N L : ℕ} {f} (ha : Rep V a N L f) {v : List ℕ} (hv : ValidIdx V v) :
    rowsAt a v = (List.range N).map fun k => (List.range L).map fun i => f k v i := by
  unfold Spec.rowsAt
  have e : a.shape.getD (a.shape.length - 1) 0 = L := by
    rw [ha.shape, show (N :: (V ++ [L])).length - 1 = V.length + 1 by simp, List.getD_cons_succ, List.getD_append_right _ _ _ _ le_rfl]
    simp
  rw [e, ha.shape, List.headD_cons]
  refine List.map_congr_left fun k hk => List.map_congr_left fun i hi => ha.get k (List.mem_range.1 hk) v hv i (List.mem_range.1 hi)

theorem col_range {h L : ℕ} (f : ℕ → ℕ → K) {i : ℕ} (hi : i < L) :
    PwPoly.col ((List.range h).map fun k => (List.range L).map (f k)) i = (List.range h).map fun k => f k i := by
  unfold PwPoly.col
  rw [List.map_map]
  refine List.map_congr_left fun k _ => ?_
  show ((List.range L).map (f k)).getD i 0 = _
  rw [List.getD_eq_getElem _ _ (by simpa using hi)]
  simp

theorem divFact_range {h L : ℕ} (f : ℕ → ℕ → K) :
    PwPoly.divFact K ((List.range h).map fun k => (List.range L).map (f k)) =
      (List.range h).map fun k => (List.range L).map fun i => f k i * (1 / (Nat.factorial k : K)) := by
  unfold PwPoly.divFact
  refine List.ext_getElem (by simp) fun k h1 h2 => ?_
  simp only [List.getElem_mapIdx, List.getElem_map, List.getElem_range, List.map_map]
  refine List.map_congr_left fun i _ => ?_
  simp [mul_comm]

theorem inplace_rows {a : NdArr K} {N L : ℕ} {f} (ha : Rep V a N L f) (g : ℕ → K) :
    ∃ r, a.inplace (· * ·) ⟨N :: List.replicate (V.length + 1) 1, fun idx => g (idx.headD 0)⟩ = .ok r ∧ Rep V r N L fun k v i => f k v i * g k := by
  have h1 : Spec.Common [V ++ [L], List.replicate (V.length + 1) 1] (V ++ [L]) := by
    refine ⟨by simp, ⟨V ++ [L], by simp, rfl⟩, fun u hu k => ?_, fun k => ⟨V ++ [L], by simp, rfl⟩⟩
    rcases List.mem_pair.1 hu with rfl | rfl
    · exact .inl rfl
    · right
      have := rdim_ones (V.length + 1) [] k
      rw [List.append_nil] at this
      rw [this]
      exact rdim_of_ge (by simp)
  have hC : Spec.Common [a.shape, N :: List.replicate (V.length + 1) 1] a.shape := by
    rw [ha.shape]
    exact (common_cons2 h1 rfl (by simp) N).1
  refine ⟨_, inplace_ok_pn hC, ha.shape, fun k hk v hv i hi => ?_⟩
  show bget a _ * bget _ _ = _
  rw [bget_Rep ha hk hv hi]
  congr 1
  unfold bget bcIdx
  simp only [List.length_cons, List.length_append, List.length_nil, List.length_replicate, hv.1, Nat.sub_self, List.drop_zero, List.zipWith_cons_cons,
    List.headD_cons]
  congr 1
  split <;> omega

theorem initPieces_nd (inv : InvFun K) {xk : List K} (hx : 2 ≤ xk.length) {args : NdArr K} {h : ℕ} {A} (ha : Rep V args (h + 1) xk.length A)
    {argz : Option (NdArr K)} (hz : ∀ z, argz = some z → z.shape = V ++ [xk.length - 1]) :
    ∃ r, NdPw.initPieces inv xk args argz = .ok r ∧ r.xk = xk ∧
      r.c.shape = (2 * (h + 1) + if argz.isSome then 1 else 0) :: (V ++ [xk.length + 1]) ∧
      ∀ v, ValidIdx V v → PwPoly.initPieces inv xk (rowsAt args v) (argz.map (rowAt v)) = r.comp v := by
  have hnda : args.shape.length - 2 = V.length := by rw [ha.shape]; simp
  have hh : args.shape.headD 0 - 1 = h := by rw [ha.shape]; rfl
  subst hh
  set h := args.shape.headD 0 - 1 with hh
  have hd : (diffs xk).length = xk.length - 1 := PwPoly.length_diffs _
  -- 211-215
  obtain ⟨a1, e1, r1⟩ := inplace_rows ha fun k => 1 / (Nat.factorial k : K)
  -- 217-221
  set dx : NdArr K := ⟨List.replicate V.length 1 ++ [xk.length - 1], fun idx => (diffs xk).getD (idx.getD V.length 0) 0⟩ with hdx
  have dxg : ∀ i < xk.length - 1, dx.get (List.replicate V.length 0 ++ [i]) = (diffs xk).getD i 0 := by
    intro i _
    show (diffs xk).getD ((List.replicate V.length 0 ++ [i]).getD V.length 0) 0 = _
    rw [List.getD_append_right _ _ _ _ (by simp)]
    simp
  have rl := slice_Rep r1 0 (xk.length - 1) (by omega)
  have rr := slice_Rep r1 1 (xk.length - 1) (by omega)
  set E : ℕ := if argz.isSome then 1 else 0 with hE
  set zf : ℕ → List ℕ → ℕ → K := fun _ v i => (argz.map fun z => z.get (v ++ [i]) * (1 / (PwPoly.evenDiv h : K))).getD 0 with hzf
  set zarr : NdArr K := NdPw.topRows (argz.map fun z => z.map fun v => v * (1 / (PwPoly.evenDiv h : K)))
    (a1.sliceLast 0 (xk.length - 1)) with hzarr
  have rz : Rep V zarr E (xk.length - 1) zf := by
    cases hc : argz with
    | none =>
      simp only [hc, hzarr, hE, Option.map_none, Option.isSome_none, NdPw.topRows]
      refine ⟨?_, fun k hk => by simp at hk⟩
      show (a1.sliceLast 0 (xk.length - 1)).shape.set 0 0 = _
      rw [rl.shape]
      rfl
    | some z =>
      simp only [hc, hzarr, hE, hzf, Option.map_some, Option.isSome_some, NdPw.topRows]
      refine ⟨?_, fun k hk v hv i hi => rfl⟩
      show z.shape.insertIdx 0 1 = _
      rw [hz z hc]
      rfl
  obtain ⟨c1, e2, r2⟩ := concat0_Rep rl (map_Rep (fun _ => 0) rl)
  obtain ⟨c2, e3, r3⟩ := concat0_Rep r2 rz
  obtain ⟨pd, e4, s4, g4⟩ := polyddxNd_ok (c := c2) (x := dx) (by rw [r3.shape]; simp) (r := V ++ [xk.length - 1])
    (by rw [r3.shape]; exact common_D V _) h false
  have r4 : Rep V pd (h + 1) (xk.length - 1) fun k v i => (polyddx (coefsAt c2 (v ++ [i])) (bget dx (v ++ [i])) h).getD k 0 :=
    ⟨s4, fun k hk v hv i hi => by rw [g4 _ (validIdx_append_nd hv (valid1 hi)) k (by omega)]; rfl⟩
  obtain ⟨r', e5, r5⟩ := zip_Rep (· - ·) rr r4
  -- 222-225
  obtain ⟨d1, e6, r6⟩ := zip_add_zero_RepD (V := V) (N := h + 1) (fun i => (diffs xk).getD i 0) dx rfl dxg
  obtain ⟨d2, e7, r7⟩ := setRow_one_RepD r6
  have r8 := cumprod_RepD r7
  obtain ⟨r'', e9, r9⟩ := inplace_Rep (· * ·) r5 r8
  -- 226-230
  have r10 := rowsDot_Rep r9 (inv (h + 1) (PwPoly.twoSided K h))
  -- 231-233
  have hrow : (d2.cumprod0.row h).shape = dx.shape := by show d2.cumprod0.shape.tail = _; rw [r8.shape]; rfl
  have e11 : dx.zip (· * ·) (d2.cumprod0.row h) = .ok ⟨dx.shape, fun idx => bget dx idx * bget (d2.cumprod0.row h) idx⟩ :=
    zip_ok_of (by rw [hrow]; exact common_refl _)
  have hval : ∀ i < xk.length - 1, ValidIdx dx.shape (List.replicate V.length 0 ++ [i]) := fun i hi =>
    validIdx_append_nd (by
      have := valid_ones (V := []) (v := []) ⟨rfl, by simp⟩ V.length
      simpa using this) (valid1 hi)
  obtain ⟨d3, e12, r12⟩ : ∃ r, d2.cumprod0.inplace (· * ·) ⟨dx.shape, fun idx => bget dx idx * bget (d2.cumprod0.row h) idx⟩ = .ok r ∧
      RepD V r (h + 1) (xk.length - 1) fun k i => (diffs xk).getD i 0 ^ k * ((diffs xk).getD i 0 * (diffs xk).getD i 0 ^ h) := by
    refine ⟨_, inplace_ok_pn (by rw [r8.shape]; exact common_append_pn [h + 1] dx.shape), r8.shape, fun k hk i hi => ?_⟩
    show bget d2.cumprod0 _ * bget _ _ = _
    rw [bget_RepD r8 hk (by simp) hi]
    congr 1
    unfold bget
    have eb : bcIdx dx.shape (k :: (List.replicate V.length 0 ++ [i])) = List.replicate V.length 0 ++ [i] := by
      rw [hdx, bcIdx_row (by simp) hi, bcIdx_rep1 (by simp)]
    show dx.get (bcIdx dx.shape (bcIdx dx.shape _)) * (d2.cumprod0.row h).get (bcIdx (d2.cumprod0.row h).shape (bcIdx dx.shape _)) = _
    rw [hrow, eb, bcIdx_self (hval i hi), dxg i hi]
    show _ * d2.cumprod0.get (h :: (List.replicate V.length 0 ++ [i])) = _
    rw [r8.get h (by omega) i hi]
  obtain ⟨r3', e13, r13⟩ := inplace_Rep (· * ·) r10 (map_RepD (fun d => 1 / d) r12)
  obtain ⟨c3, e14, r14⟩ := concat0_Rep rl r13
  obtain ⟨c4, e15, r15⟩ := concat0_Rep r14 rz
  -- 235-237
  have r16 := map_Rep (fun _ => (0 : K)) (slice_Rep r15 0 1 (by omega))
  obtain ⟨c5, e17, r17⟩ := concatL_Rep r16 r15
  obtain ⟨c6, e18, r18⟩ := concatL_Rep r17 r16
  set c7 : NdArr K := ⟨c6.shape, fun idx =>
    if idx.headD 0 < h + 1 ∧ idx.getD (V.length + 1) 0 = 0 then a1.get (idx.set (V.length + 1) 0)
    else if idx.headD 0 < h + 1 ∧ idx.getD (V.length + 1) 0 = xk.length then a1.get (idx.set (V.length + 1) (xk.length - 1))
    else c6.get idx⟩ with hc7
  have hsh : c7.shape = (2 * (h + 1) + E) :: (V ++ [xk.length + 1]) := by
    show c6.shape = _
    rw [r18.shape, show h + 1 + (h + 1) + E = 2 * (h + 1) + E by omega, show 1 + (xk.length - 1) + 1 = xk.length + 1 by omega]
  refine ⟨⟨xk, c7⟩, ?_, rfl, hsh, fun v hv => ?_⟩
  · unfold NdPw.initPieces
    simp only [hnda, ← hh, bind, Except.bind, e1]
    have e6' : dx.zip (· + ·) ⟨(h + 1) :: (List.replicate V.length 1 ++ [xk.length - 1]), fun _ => (0 : K)⟩ = .ok d1 := e6
    have e13' : (rowsDot (inv (args.shape.headD 0 - 1 + 1) (PwPoly.twoSided K (args.shape.headD 0 - 1))) r'').inplace (· * ·) (d3.map fun d => 1 / d) = .ok r3' := e13
    simp only [← hzarr, ← hdx, e2, e3, e4, e5, e6', e7, e9, e11, e12, e13', e14, e15, e17, e18, pure, Except.pure]
    rfl
  · have gd : ∀ k i, (k :: (v ++ [i])).getD (V.length + 1) 0 = i := by
      intro k i
      rw [List.getD_cons_succ, ← hv.1, List.getD_append_right _ _ _ _ le_rfl]
      simp
    have st : ∀ k i j, (k :: (v ++ [i])).set (V.length + 1) j = k :: (v ++ [j]) := by
      intro k i j
      rw [List.set_cons_succ, ← hv.1, List.set_append_right _ _ le_rfl]
      simp
    have g7 : ∀ k i, c7.get (k :: (v ++ [i])) = if k < h + 1 ∧ i = 0 then a1.get (k :: (v ++ [0])) else
        if k < h + 1 ∧ i = xk.length then a1.get (k :: (v ++ [xk.length - 1])) else c6.get (k :: (v ++ [i])) := by
      intro k i
      show (if (k :: (v ++ [i])).headD 0 < h + 1 ∧ (k :: (v ++ [i])).getD (V.length + 1) 0 = 0 then a1.get ((k :: (v ++ [i])).set (V.length + 1) 0)
        else if (k :: (v ++ [i])).headD 0 < h + 1 ∧ (k :: (v ++ [i])).getD (V.length + 1) 0 = xk.length then
          a1.get ((k :: (v ++ [i])).set (V.length + 1) (xk.length - 1)) else c6.get (k :: (v ++ [i]))) = _
      rw [gd, st, st]
      rfl
    have hrows := rowsAt_Rep ha hv
    have hlen : (rowsAt args v).length - 1 = h := by rw [hrows]; simp
    set Lf : ℕ → List K := fun i => (List.range (h + 1)).map fun k => A k v i * (1 / (Nat.factorial k : K)) with hLf
    set Zf : ℕ → List K := fun i => (List.range E).map fun k => zf k v i with hZf
    have hcol : ∀ i < xk.length, PwPoly.col (PwPoly.divFact K (rowsAt args v)) i = Lf i := by
      intro i hi
      rw [hrows, divFact_range, col_range (fun k i => A k v i * (1 / (Nat.factorial k : K))) hi]
    have hsc : PwPoly.initPieces inv xk (rowsAt args v) (argz.map (rowAt v)) = ⟨xk, 2 * (h + 1) + E,
        [Lf 0 ++ List.replicate (h + 1) 0 ++ List.replicate E 0] ++
        ((List.range (xk.length - 1)).map fun i => PwPoly.hermite inv h (xk.getD (i + 1) 0 - xk.getD i 0) (Lf i) (Lf (i + 1)) (Zf i)) ++
        [Lf (xk.length - 1) ++ List.replicate (h + 1) 0 ++ List.replicate E 0]⟩ := by
      unfold PwPoly.initPieces
      simp only [hlen]
      rw [hcol 0 (by omega), hcol (xk.length - 1) (by omega)]
      cases hc : argz with
      | none =>
        have hE0 : E = 0 := by simp [hE, hc]
        have hi : (List.range (xk.length - 1)).map (fun i => PwPoly.hermite inv h (xk.getD (i + 1) 0 - xk.getD i 0) (PwPoly.col (PwPoly.divFact K (rowsAt args v)) i)
            (PwPoly.col (PwPoly.divFact K (rowsAt args v)) (i + 1)) []) =
            (List.range (xk.length - 1)).map fun i => PwPoly.hermite inv h (xk.getD (i + 1) 0 - xk.getD i 0) (Lf i) (Lf (i + 1)) (Zf i) := by
          refine List.map_congr_left fun i hi => ?_
          have := List.mem_range.1 hi
          rw [hcol i (by omega), hcol (i + 1) (by omega)]
          simp [hZf, hE0]
        simp only [Option.map_none, hE0, hi]
        rfl
      | some z =>
        have hE1 : E = 1 := by simp [hE, hc]
        have hl : z.shape.getD (z.shape.length - 1) 0 = xk.length - 1 := by
          rw [hz z hc]
          simp
        have hi : (List.range (xk.length - 1)).map (fun i => PwPoly.hermite inv h (xk.getD (i + 1) 0 - xk.getD i 0) (PwPoly.col (PwPoly.divFact K (rowsAt args v)) i)
            (PwPoly.col (PwPoly.divFact K (rowsAt args v)) (i + 1)) [((rowAt v z).map fun v => (1 / (PwPoly.evenDiv h : K)) • v).getD i 0]) =
            (List.range (xk.length - 1)).map fun i => PwPoly.hermite inv h (xk.getD (i + 1) 0 - xk.getD i 0) (Lf i) (Lf (i + 1)) (Zf i) := by
          refine List.map_congr_left fun i hi => ?_
          have := List.mem_range.1 hi
          rw [hcol i (by omega), hcol (i + 1) (by omega)]
          congr 1
          simp only [hZf, hE1, hzf, hc, Option.map_some, Option.getD_some, Spec.rowAt, hl]
          rw [List.getD_eq_getElem _ _ (by simpa using hi)]
          simp [mul_comm]
        simp only [Option.map_some, hE1, hi]
        rfl
    rw [hsc]
    have l1 : ∀ i, (Lf i).length = h + 1 := fun i => by simp [hLf]
    have lz : ∀ i, (Zf i).length = E := fun i => by simp [hZf]
    have hhd : c7.shape.headD 0 = 2 * (h + 1) + E := by rw [hsh]; rfl
    refine eq_comp rfl hhd.symm (by simp; omega) fun i hi => ?_
    have hi : i ≤ xk.length := hi
    rw [hhd]
    have Lg : ∀ i k, k < h + 1 → (Lf i).getD k 0 = A k v i * (1 / (Nat.factorial k : K)) := by
      intro i k hk
      rw [List.getD_eq_getElem _ _ (by rw [l1]; exact hk)]
      simp [hLf]
    have Zg : ∀ i k, k < E → (Zf i).getD k 0 = zf k v i := by
      intro i k hk
      rw [List.getD_eq_getElem _ _ (by rw [lz]; exact hk)]
      simp [hZf]
    -- the pieces beyond the ends
    have ends : ∀ j i, j < xk.length → i ≤ xk.length → i = 0 ∧ j = 0 ∨ i = xk.length ∧ j = xk.length - 1 → ∀ k < 2 * (h + 1) + E,
        (Lf j ++ List.replicate (h + 1) 0 ++ List.replicate E 0).getD k 0 = c7.get (k :: (v ++ [i])) := by
      intro j i hj hi hij k hk
      rw [g7]
      by_cases hkh : k < h + 1
      · rw [List.append_assoc, List.getD_append _ _ _ _ (by rw [l1]; exact hkh), Lg j k hkh]
        rcases hij with ⟨rfl, rfl⟩ | ⟨rfl, rfl⟩
        · rw [if_pos ⟨hkh, rfl⟩, r1.get k hkh v hv 0 hj]
        · rw [if_neg (by omega), if_pos ⟨hkh, rfl⟩, r1.get k hkh v hv _ hj]
      · rw [if_neg (by omega), if_neg (by omega), r18.get k (by omega) v hv i (by omega), List.append_assoc,
          List.getD_append_right _ _ _ _ (by rw [l1]; omega)]
        have e0 : ∀ q, (List.replicate (h + 1) (0 : K) ++ List.replicate E 0).getD q 0 = 0 := by
          intro q
          rw [← List.replicate_add]
          simp
        rw [e0]
        rcases hij with ⟨rfl, rfl⟩ | ⟨rfl, rfl⟩
        · simp
        · rw [if_neg (by omega)]
    rcases Nat.eq_zero_or_pos i with rfl | hi0
    · refine ⟨by simp [l1]; omega, fun k hk => ?_⟩
      exact ends 0 0 (by omega) (by omega) (.inl ⟨rfl, rfl⟩) k hk
    rcases Nat.lt_or_ge i xk.length with hin | hin
    · obtain ⟨j, rfl⟩ : ∃ j, i = j + 1 := ⟨i - 1, by omega⟩
      have hj : j < xk.length - 1 := by omega
      have epc : (([Lf 0 ++ List.replicate (h + 1) 0 ++ List.replicate E 0] ++
        ((List.range (xk.length - 1)).map fun i => PwPoly.hermite inv h (xk.getD (i + 1) 0 - xk.getD i 0) (Lf i) (Lf (i + 1)) (Zf i)) ++
        [Lf (xk.length - 1) ++ List.replicate (h + 1) 0 ++ List.replicate E 0]).getD (j + 1) []) =
          PwPoly.hermite inv h (xk.getD (j + 1) 0 - xk.getD j 0) (Lf j) (Lf (j + 1)) (Zf j) := by
        rw [List.append_assoc, List.getD_append_right _ _ _ _ (by simp), List.getD_append _ _ _ _ (by simpa using hj),
          List.getD_eq_getElem _ _ (by simpa using hj)]
        simp
      rw [epc]
      have hdj : (diffs xk).getD j 0 = xk.getD (j + 1) 0 - xk.getD j 0 := by rw [List.getD_eq_getElem _ _ (by omega), PwPoly.diffs_getElem]
      refine ⟨?_, fun k hk => ?_⟩
      · unfold PwPoly.hermite PwPoly.matDot
        simp [l1, lz]
        omega
      rw [g7, if_neg (by omega), if_neg (by omega), r18.get k (by omega) v hv (j + 1) (by omega), if_pos (by omega), if_neg (by omega),
        Nat.add_sub_cancel, hermite_getD inv h _ _ _ _ k (by rw [lz]; exact hk)]
      by_cases hk1 : k < h + 1
      · rw [if_pos hk1, if_pos (by omega), if_pos hk1]
        rfl
      · rw [if_neg hk1]
        by_cases hk2 : k - (h + 1) < h + 1
        · rw [dif_pos hk2, if_pos (by omega), if_neg hk1, dif_pos hk2, hdj]
          have hco : coefsAt c2 (v ++ [j]) = (List.range (h + 1)).map (fun k => A k v j * (1 / (Nat.factorial k : K))) ++ List.replicate (h + 1) 0 ++ Zf j := by
            unfold coefsAt
            rw [r3.shape, List.headD_cons, List.tail_cons, bcIdx_self (validIdx_append_nd hv (valid1 hj))]
            refine List.ext_getElem (by simp [lz]; omega) fun q q1 q2 => ?_
            have hq : q < h + 1 + (h + 1) + E := by simpa using q1
            rw [List.getElem_map, List.getElem_range, r3.get q hq v hv j hj]
            by_cases a1 : q < h + 1
            · rw [if_pos (by omega), if_pos a1, List.getElem_append_left (by simp; omega), List.getElem_append_left (by simpa using a1)]
              simp
            · by_cases a2 : q < h + 1 + (h + 1)
              · rw [if_pos a2, if_neg a1, List.getElem_append_left (by simp; omega), List.getElem_append_right (by simp; omega)]
                simp
              · rw [if_neg a2, List.getElem_append_right (by simp; omega), ← List.getD_eq_getElem _ 0, Zg _ _ (by simp; omega)]
          have hbd : bget dx (v ++ [j]) = xk.getD (j + 1) 0 - xk.getD j 0 := by
            unfold bget
            have : bcIdx dx.shape (v ++ [j]) = List.replicate V.length 0 ++ [j] := by
              have e := bcIdx_row (V := List.replicate V.length 1) (r := v) (L := xk.length - 1) (k := 0) (i := j) (by simp [hv.1]) hj
              rw [bcIdx_cons_pn (by simp [hv.1]), bcIdx_rep1 hv.1] at e
              exact e
            rw [this, dxg j hj, hdj]
          rw [hco, hbd, mul_comm]
          congr 1
          · congr 1
            refine List.map_congr_left fun q _ => ?_
            ring
          · rw [pow_add, pow_succ]
            congr 1
            ring
        · rw [dif_neg hk2, if_neg (by omega), Zg _ _ (by omega), show k - 2 * (h + 1) = k - (h + 1 + (h + 1)) by omega]
    · obtain rfl : i = xk.length := by omega
      have epc : (([Lf 0 ++ List.replicate (h + 1) 0 ++ List.replicate E 0] ++
        ((List.range (xk.length - 1)).map fun i => PwPoly.hermite inv h (xk.getD (i + 1) 0 - xk.getD i 0) (Lf i) (Lf (i + 1)) (Zf i)) ++
        [Lf (xk.length - 1) ++ List.replicate (h + 1) 0 ++ List.replicate E 0]).getD xk.length []) =
          Lf (xk.length - 1) ++ List.replicate (h + 1) 0 ++ List.replicate E 0 := by
        rw [List.getD_append_right _ _ _ _ (by simp; omega)]
        simp
        rw [show xk.length - (xk.length - 1 + 1) = 0 by omega]
        simp
      rw [epc]
      exact ⟨by simp [l1]; omega, ends (xk.length - 1) xk.length (by omega) le_rfl (.inr ⟨rfl, rfl⟩)⟩

theorem last_snoc (V : List ℕ) (l : ℕ) : (V ++ [l]).getD ((V ++ [l]).length - 1) 0 = l := by simp

theorem rowAt_length {a : NdArr K} {l : ℕ} (h : a.shape = V ++ [l]) (v : List ℕ) : (rowAt v a).length = l := by
  unfold Spec.rowAt
  rw [h, last_snoc]
  simp

theorem stack_ok {body : List (NdArr K)} (hne : body ≠ []) {S : List ℕ} (h : ∀ a ∈ body, a.shape = S) :
    stack body = .ok ⟨body.length :: S, fun idx => (body.getD (idx.headD 0) ⟨[], fun _ => 0⟩).get idx.tail⟩ := by
  obtain ⟨a, l, rfl⟩ := List.exists_cons_of_ne_nil hne
  unfold stack
  have ha : ((a :: l).headD ⟨[], fun _ => (0 : K)⟩).shape = S := h a (by simp)
  rw [if_pos (by rw [ha]; exact h)]
  simp only [ha, hne, if_false]

theorem ragged_iff {body : List (NdArr K)} (h : ∀ a ∈ body, ∃ l, a.shape = V ++ [l]) (hne : body ≠ []) (v : List ℕ) :
    PwPoly.Ragged (body.map (rowAt v)) ↔ ¬ ∀ a ∈ body, a.shape = (body.headD ⟨[], fun _ => 0⟩).shape := by
  obtain ⟨a, l, rfl⟩ := List.exists_cons_of_ne_nil hne
  unfold PwPoly.Ragged
  simp only [List.map_cons, List.headD_cons]
  push Not
  obtain ⟨la, ha⟩ := h a (by simp)
  constructor
  · rintro ⟨r, hr, h1⟩
    rw [← List.map_cons, List.mem_map] at hr
    obtain ⟨b, hb, rfl⟩ := hr
    refine ⟨b, hb, fun e => h1 ?_⟩
    unfold Spec.rowAt
    rw [e]
    simp
  · rintro ⟨b, hb, h1⟩
    obtain ⟨lb, hlb⟩ := h b hb
    refine ⟨rowAt v b, by rw [← List.map_cons]; exact List.mem_map_of_mem hb, fun e => h1 ?_⟩
    rw [rowAt_length hlb, rowAt_length ha] at e
    rw [hlb, ha, e]

theorem rowsAt_stack {body : List (NdArr K)} {l : ℕ} (h : ∀ a ∈ body, a.shape = V ++ [l]) {v : List ℕ} :
    rowsAt (⟨body.length :: (V ++ [l]), fun idx => (body.getD (idx.headD 0) ⟨[], fun _ => 0⟩).get idx.tail⟩ : NdArr K) v = body.map (rowAt v) := by
  unfold Spec.rowsAt
  have e : (body.length :: (V ++ [l])).getD ((body.length :: (V ++ [l])).length - 1) 0 = l := by
    rw [show (body.length :: (V ++ [l])).length - 1 = V.length + 1 by simp, List.getD_cons_succ, List.getD_append_right _ _ _ _ le_rfl]
    simp
  simp only [List.headD_cons, List.tail_cons, e]
  refine List.ext_getElem (by simp) fun k h1 h2 => ?_
  have hk : k < body.length := by simpa using h1
  simp only [List.getElem_map, List.getElem_range]
  rw [List.getD_eq_getElem _ _ hk]
  unfold Spec.rowAt
  rw [h _ (List.getElem_mem hk), last_snoc]

/-- `R` is the constructor's result for arrays and `S v` for the component `v`: both the same error, or `R` has the components `S v` -/
def _root_.Npplus.Spec.Componentwise (V : List ℕ) (xk : List K) (R : Except PyErr (NdPw K)) (S : List ℕ → Except PyErr (PwPoly K K)) : Prop :=
  (∃ e, R = .error e ∧ ∀ v, ValidIdx V v → S v = .error e) ∨
  ∃ r n, R = .ok r ∧ r.xk = xk ∧ 1 ≤ n ∧ r.c.shape = n :: (V ++ [xk.length + 1]) ∧ ∀ v, ValidIdx V v → S v = .ok (r.comp v)

theorem _root_.Npplus.Spec.Componentwise.congr {xk : List K} {R : Except PyErr (NdPw K)} {S T : List ℕ → Except PyErr (PwPoly K K)}
    (h : Componentwise V xk R S) (e : ∀ v, ValidIdx V v → S v = T v) : Componentwise V xk R T := by
  rcases h with ⟨x, h1, h2⟩ | ⟨r, n, h1, h2, h3, h4, h5⟩
  · exact .inl ⟨x, h1, fun v hv => by rw [← e v hv, h2 v hv]⟩
  · exact .inr ⟨r, n, h1, h2, h3, h4, fun v hv => by rw [← e v hv, h5 v hv]⟩

theorem initBody_nd (inv : InvFun K) (xk : List K) {body : List (NdArr K)} (hne : body ≠ []) (hV : 0 ∉ V) (h : ∀ a ∈ body, ∃ l, a.shape = V ++ [l])
    {z : Option (NdArr K)} (hz : ∀ a, z = some a → a.shape = V ++ [xk.length - 1]) :
    Componentwise V xk (NdPw.initBody inv xk body z) fun v => PwPoly.initBody inv xk (body.map (rowAt v)) (z.map (rowAt v)) := by
  by_cases hr : ∀ a ∈ body, a.shape = (body.headD ⟨[], fun _ => 0⟩).shape
  · obtain ⟨a0, rest, hb⟩ := List.exists_cons_of_ne_nil hne
    obtain ⟨l, hl⟩ := h a0 (by rw [hb]; simp)
    have hall : ∀ a ∈ body, a.shape = V ++ [l] := by
      intro a ha
      rw [hr a ha, hb]
      exact hl
    have hst := stack_ok hne hall
    set args : NdArr K := ⟨body.length :: (V ++ [l]), fun idx => (body.getD (idx.headD 0) ⟨[], fun _ => 0⟩).get idx.tail⟩ with hargs
    have hlast : args.shape.getD (args.shape.length - 1) 0 = l := by
      show (body.length :: (V ++ [l])).getD ((body.length :: (V ++ [l])).length - 1) 0 = l
      rw [show (body.length :: (V ++ [l])).length - 1 = V.length + 1 by simp, List.getD_cons_succ, List.getD_append_right _ _ _ _ le_rfl]
      simp
    have hmem : 0 ∈ args.shape ↔ l = 0 := by
      show 0 ∈ body.length :: (V ++ [l]) ↔ _
      have : body.length ≠ 0 := by rw [hb]; simp
      simp [hV, this.symm, eq_comm]
    have hnr : ∀ v, ¬ PwPoly.Ragged (body.map (rowAt v)) := fun v => by rw [ragged_iff h hne]; exact not_not.2 hr
    have hhd : ∀ v, ((body.map (rowAt v)).headD []).length = l := by
      intro v
      rw [hb, List.map_cons, List.headD_cons, rowAt_length hl]
    have hhd0 : ∀ v, (body.map (rowAt v)).headD [] = [] ↔ l = 0 := by
      intro v
      rw [← List.length_eq_zero_iff, hhd]
    have e0 : NdPw.initBody inv xk body z = if xk = [] ∨ l = 0 then .error .indexError else if l = xk.length + 1 then .ok ⟨xk, args⟩ else
        if l ≠ xk.length then .error .typeError else if xk.length < 2 then .error .typeError else NdPw.initPieces inv xk args z := by
      unfold NdPw.initBody
      simp only [bind, Except.bind, hst, hlast, hmem]
      rw [if_neg (by show ¬ (body.length :: (V ++ [l])).length < 2; simp)]
      simp only [pure, Except.pure, throw, throwThe, MonadExceptOf.throw]
    have e1 : ∀ v, PwPoly.initBody inv xk (body.map (rowAt v)) (z.map (rowAt v)) = if xk = [] ∨ l = 0 then .error .indexError else
        if l = xk.length + 1 then .ok ⟨xk, (body.map (rowAt v)).length, (List.range (xk.length + 1)).map (PwPoly.col (body.map (rowAt v)))⟩ else
        if l ≠ xk.length then .error .typeError else if xk.length < 2 then .error .typeError else
          .ok (PwPoly.initPieces inv xk (body.map (rowAt v)) (z.map (rowAt v))) := by
      intro v
      unfold PwPoly.initBody
      rw [if_neg (hnr v), hhd v]
      simp only [hhd0 v]
    have hpos : 1 ≤ body.length := by rw [hb]; simp
    rw [e0]
    simp only [e1]
    by_cases c1 : xk = [] ∨ l = 0
    · simp only [if_pos c1]
      exact .inl ⟨_, rfl, fun v _ => rfl⟩
    simp only [if_neg c1]
    by_cases c2 : l = xk.length + 1
    · simp only [if_pos c2]
      refine .inr ⟨⟨xk, args⟩, body.length, rfl, rfl, hpos, by rw [hargs, c2], fun v hv => ?_⟩
      show Except.ok _ = Except.ok _
      congr 1
      have hsh : args.shape.headD 0 = body.length := rfl
      refine eq_comp (r := ⟨xk, args⟩) (P := ⟨xk, (body.map (rowAt v)).length, (List.range (xk.length + 1)).map (PwPoly.col (body.map (rowAt v)))⟩)
        rfl (by show (body.map (rowAt v)).length = body.length; simp) (by simp) fun i hi => ?_
      have hi : i ≤ xk.length := hi
      rw [List.getD_eq_getElem _ _ (by simp; omega), List.getElem_map, List.getElem_range]
      refine ⟨by show (PwPoly.col (body.map (rowAt v)) i).length = body.length; simp [PwPoly.col], fun k hk => ?_⟩
      have hk : k < body.length := hk
      unfold PwPoly.col
      rw [List.getD_eq_getElem _ _ (by simpa using hk), List.getElem_map, List.getElem_map]
      show _ = (body.getD k ⟨[], fun _ => 0⟩).get (v ++ [i])
      rw [List.getD_eq_getElem body _ hk]
      unfold Spec.rowAt
      rw [hall _ (List.getElem_mem hk), last_snoc, List.getD_eq_getElem _ _ (by simp; omega)]
      simp
    simp only [if_neg c2]
    by_cases c3 : l ≠ xk.length
    · simp only [if_pos c3]
      exact .inl ⟨_, rfl, fun v _ => rfl⟩
    simp only [if_neg c3]
    by_cases c4 : xk.length < 2
    · simp only [if_pos c4]
      exact .inl ⟨_, rfl, fun v _ => rfl⟩
    simp only [if_neg c4]
    have hrep : Rep V args (body.length - 1 + 1) xk.length fun k v i => args.get (k :: (v ++ [i])) :=
      ⟨by show body.length :: (V ++ [l]) = _; rw [show body.length - 1 + 1 = body.length by omega, show l = xk.length by omega], fun _ _ _ _ _ _ => rfl⟩
    obtain ⟨r, h1, h2, h3, h4⟩ := initPieces_nd inv (by omega) hrep hz
    refine .inr ⟨r, _, h1, h2, by omega, h3, fun v hv => ?_⟩
    rw [← h4 v hv, hargs, rowsAt_stack hall]
  · refine .inl ⟨.valueError, ?_, fun v _ => ?_⟩
    · unfold NdPw.initBody stack
      simp only [bind, Except.bind]
      rw [if_neg hr]
    · show PwPoly.initBody inv xk (body.map (rowAt v)) (z.map (rowAt v)) = _
      unfold PwPoly.initBody
      rw [if_pos ((ragged_iff h hne v).2 hr)]

theorem concatV {a b : NdArr K} {l m : ℕ} (ha : a.shape = V ++ [l]) (hb : b.shape = V ++ [m]) :
    ∃ r, concatE V.length a b = .ok r ∧ r.shape = V ++ [l + m] ∧ ∀ v, ValidIdx V v → ∀ i, r.get (v ++ [i]) = if i < l then a.get (v ++ [i]) else b.get (v ++ [i - l]) := by
  refine ⟨concatAx V.length a b, ?_, ?_, fun v hv i => ?_⟩
  · unfold concatE
    rw [if_pos]
    rw [ha, hb, eraseIdx_last, eraseIdx_last]
    simp
  · show a.shape.set _ (a.shape.getD _ 0 + b.shape.getD _ 0) = _
    rw [ha, hb]
    simp
  · show (if (v ++ [i]).getD V.length 0 < a.shape.getD V.length 0 then a.get (v ++ [i]) else
      b.get ((v ++ [i]).set V.length ((v ++ [i]).getD V.length 0 - a.shape.getD V.length 0))) = _
    rw [ha, ← hv.1]
    simp [hv.1]

theorem initInc_nd (inv : InvFun K) (xk : List K) {args : List (NdArr K)} (hV : 0 ∉ V) (h : ∀ a ∈ args, ∃ l, a.shape = V ++ [l]) :
    Componentwise V xk (NdPw.initInc inv xk args) fun v => PwPoly.initInc inv xk (args.map (rowAt v)) := by
  unfold NdPw.initInc PwPoly.initInc
  by_cases hne : args = []
  · subst hne
    exact .inl ⟨_, rfl, fun v _ => rfl⟩
  simp only [List.getLast?_map, List.getLast?_eq_some_getLast hne, Option.map_some]
  set z := args.getLast hne with hz
  obtain ⟨l, hl⟩ := h z (List.getLast_mem hne)
  have hzl : z.shape.getD (z.shape.length - 1) 0 = l := by rw [hl, last_snoc]
  have hzne : z.shape ≠ [] := by rw [hl]; simp
  rw [if_neg hzne]
  simp only [hzl, rowAt_length hl]
  by_cases c1 : l + 1 = xk.length
  · simp only [if_pos c1]
    by_cases c2 : args.dropLast = []
    · have c2' : ∀ v, (args.map (rowAt v)).dropLast = [] := fun v => by rw [← List.map_dropLast, c2]; rfl
      simp only [if_pos c2, if_pos (c2' _)]
      have hs0 : ((z.sliceLast 0 (min 1 l)).map fun _ => (0 : K)).shape = V ++ [min 1 l] := by
        show z.shape.set _ _ = _
        rw [hl]
        simp
      obtain ⟨y1, hy1, sy1, gy1⟩ := concatV hs0 hl
      obtain ⟨y2, hy2, sy2, gy2⟩ := concatV sy1 hs0
      have hk : z.shape.length - 1 = V.length := by rw [hl]; simp
      simp only [bind, Except.bind, hk, hy1, hy2]
      have := initBody_nd inv xk (body := [y2]) (by simp) hV (by simpa using ⟨_, sy2⟩) (z := none) (by simp)
      have e : ∀ v, ValidIdx V v → rowAt v y2 = PwPoly.histRow (rowAt v z) := by
        intro v hv
        unfold Spec.rowAt PwPoly.histRow
        rw [sy2, hl, last_snoc, last_snoc]
        refine List.ext_getElem (by simp; omega) fun i h1 h2 => ?_
        have hi : i < min 1 l + l + min 1 l := by simpa using h1
        rw [List.getElem_map, List.getElem_range, gy2 v hv]
        by_cases a1 : i < min 1 l + l
        · rw [if_pos a1, gy1 v hv, List.getElem_append_left (by simpa using a1)]
          by_cases a2 : i < min 1 l
          · rw [if_pos a2, List.getElem_append_left (by simpa using a2)]
            simp [NdArr.map]
          · rw [if_neg a2, List.getElem_append_right (by simp; omega)]
            simp
        · rw [if_neg a1, List.getElem_append_right (by simpa using a1)]
          simp [NdArr.map]
      exact this.congr fun v hv => by simp [e v hv]
    · have c2' : ∀ v, ¬ (args.map (rowAt v)).dropLast = [] := fun v h => c2 (List.map_eq_nil_iff.1 (by rw [List.map_dropLast]; exact h))
      simp only [if_neg c2, if_neg (c2' _)]
      have := initBody_nd inv xk c2 hV (fun a ha => h a (List.dropLast_subset _ ha)) (z := some z) (by
        intro a ha
        obtain rfl := Option.some.inj ha
        rw [hl, ← c1, Nat.add_sub_cancel])
      simpa only [List.map_dropLast, Option.map_some] using this
  · simp only [if_neg c1]
    exact initBody_nd inv xk hne hV h (z := none) (by simp)

theorem rowAt_rev {body : List (NdArr K)} {l : ℕ} (h : ∀ a ∈ body, a.shape = V ++ [l]) {v : List ℕ} (hv : ValidIdx V v) :
    (revLast (⟨body.length :: (V ++ [l]), fun idx => (body.getD (idx.headD 0) ⟨[], fun _ => 0⟩).get idx.tail⟩ : NdArr K)).rows.map (rowAt v) =
      (body.map (rowAt v)).map List.reverse := by
  unfold rows
  refine List.ext_getElem (by simp [revLast]) fun k h1 h2 => ?_
  have hk : k < body.length := by simpa using h2
  simp only [List.getElem_map, List.getElem_range]
  have hb := h _ (List.getElem_mem hk)
  unfold Spec.rowAt row
  rw [hb, last_snoc]
  simp only [revLast, List.tail_cons, last_snoc]
  refine List.ext_getElem (by simp) fun i i1 i2 => ?_
  have hi : i < l := by simpa using i2
  have e1 : (body.length :: (V ++ [l])).length - 1 = V.length + 1 := by simp
  have e2 : (body.length :: (V ++ [l])).getD (V.length + 1) 0 = l := by
    rw [List.getD_cons_succ, List.getD_append_right _ _ _ _ le_rfl]
    simp
  have e3 : (k :: (v ++ [i])).getD (V.length + 1) 0 = i := by
    rw [List.getD_cons_succ, ← hv.1, List.getD_append_right _ _ _ _ le_rfl]
    simp
  have e4 : ∀ j, (k :: (v ++ [i])).set (V.length + 1) j = k :: (v ++ [j]) := by
    intro j
    rw [List.set_cons_succ, ← hv.1, List.set_append_right _ _ le_rfl]
    simp
  rw [List.getElem_map, List.getElem_range, List.getElem_reverse, List.getElem_map, List.getElem_range, e1, e2, e3, e4]
  simp only [List.headD_cons, List.tail_cons, List.length_map, List.length_range]
  rw [List.getD_eq_getElem _ _ hk]

end NdAux

/-- the knots as the constructor stores them: reversed when decreasing -/
def Spec.ascending (xk : List K) : List K := if xk.getD (xk.length - 1) 0 < xk.getD 0 0 then xk.reverse else xk

/-- **C109** `PwPoly(xk, *args)` with data arrays of shapes `V + (lᵢ,)` is the constructor for each component: it raises exactly when the
constructor raises for the data of a component (the same error for all of them), otherwise its component `v` is the piecewise polynomial made
from the data `args[i][v]`; this covers all the forms (values and derivatives, even degree, histograms, decreasing knots, wrong lengths). -/
theorem C109_init (inv : InvFun K) (xk : List K) {args : List (NdArr K)} (hV : 0 ∉ V) (h : ∀ a ∈ args, ∃ l, a.shape = V ++ [l]) :
    Componentwise V (ascending xk) (NdPw.init inv xk args) fun v => PwPoly.init inv xk (args.map (rowAt v)) := by
  unfold NdPw.init PwPoly.init Spec.ascending
  by_cases hd : xk.getD (xk.length - 1) 0 < xk.getD 0 0
  · have h1 : 1 < xk.length := by
      by_contra hh
      have : xk.length - 1 = 0 := by omega
      rw [this] at hd
      exact lt_irrefl _ hd
    have hc : 1 < xk.length ∧ xk.getD (xk.length - 1) 0 < xk.getD 0 0 := ⟨h1, hd⟩
    simp only [if_pos hc, if_pos hd]
    by_cases hne : args = []
    · subst hne
      have e := initInc_nd inv xk.reverse (args := []) hV (by simp)
      exact e
    by_cases hr : ∀ a ∈ args, a.shape = (args.headD ⟨[], fun _ => 0⟩).shape
    · obtain ⟨a0, rest, hb⟩ := List.exists_cons_of_ne_nil hne
      obtain ⟨l, hl⟩ := h a0 (by rw [hb]; simp)
      have hall : ∀ a ∈ args, a.shape = V ++ [l] := by
        intro a ha
        rw [hr a ha, hb]
        exact hl
      simp only [stack_ok hne hall, bind, Except.bind]
      refine (initInc_nd inv xk.reverse hV fun a ha => ?_).congr fun v hv => ?_
      · unfold rows at ha
        rw [List.mem_map] at ha
        obtain ⟨k, hk, rfl⟩ := ha
        exact ⟨l, rfl⟩
      · rw [if_neg (by rw [ragged_iff h hne]; exact not_not.2 hr), rowAt_rev hall hv]
    · refine .inl ⟨.valueError, ?_, fun v _ => ?_⟩
      · unfold stack
        rw [if_neg hr]
        rfl
      · show (if _ then _ else _) = _
        rw [if_pos ((ragged_iff h hne v).2 hr)]
  · have hc : ¬ (1 < xk.length ∧ xk.getD (xk.length - 1) 0 < xk.getD 0 0) := fun hh => hd hh.2
    simp only [if_neg hc, if_neg hd]
    exact initInc_nd inv xk hV h

theorem NdAux.zero_valid (hV : 0 ∉ V) : ValidIdx V (List.replicate V.length 0) := by
  refine ⟨by simp, fun k hk => ?_⟩
  rw [List.getD_eq_getElem _ _ (by simpa using hk), List.getD_eq_getElem _ _ hk, List.getElem_replicate]
  rcases Nat.eq_zero_or_pos V[k] with h | h
  · exact absurd (h ▸ List.getElem_mem hk) hV
  · exact h

theorem NdAux.not_desc {xk : List K} (hs : xk.Pairwise (· < ·)) : ascending xk = xk := by
  unfold Spec.ascending
  rw [if_neg]
  intro h
  rcases xk with _ | ⟨a, l⟩
  · simp at h
  · have : ∀ b ∈ a :: l, a ≤ b := by
      intro b hb
      rcases List.mem_cons.1 hb with rfl | hb
      · exact le_rfl
      · exact ((List.pairwise_cons.1 hs).1 b hb).le
    rw [List.getD_eq_getElem _ _ (by simp)] at h
    exact absurd h (not_lt.2 (this _ (List.getElem_mem _)))

theorem NdAux.not_decr {xk : List K} (hs : xk.Pairwise (· < ·)) : ¬ (1 < xk.length ∧ xk.getD (xk.length - 1) 0 < xk.getD 0 0) := by
  rintro ⟨h1, h2⟩
  rw [List.getD_eq_getElem _ _ (by omega), List.getD_eq_getElem _ _ (by omega)] at h2
  exact absurd h2 (not_lt.2 (List.pairwise_iff_getElem.mp hs 0 (xk.length - 1) (by omega) (by omega) (by omega)).le)

theorem NdAux.comp_success {xk : List K} (hx : xk ≠ []) (hs : xk.Pairwise (· < ·)) (hV : 0 ∉ V) {R : Except PyErr (NdPw K)} {S : List ℕ → Except PyErr (PwPoly K K)}
    (h : Componentwise V xk R S) {N : ℕ} (ok : ∀ v, ValidIdx V v → ∃ p, S v = .ok p ∧ p.n = N) :
    ∃ r, R = .ok r ∧ r.xk = xk ∧ NdWF r N V ∧ ∀ v, ValidIdx V v → S v = .ok (r.comp v) := by
  obtain ⟨p, hp, hpn⟩ := ok _ (zero_valid hV)
  rcases h with ⟨e, h1, h2⟩ | ⟨r, n, h1, h2, h3, h4, h5⟩
  · rw [h2 _ (zero_valid hV)] at hp
    cases hp
  · have := h5 _ (zero_valid hV)
    rw [hp] at this
    obtain rfl := Except.ok.inj this
    have hn : n = N := by
      rw [← hpn]
      unfold NdPw.comp
      simp [h4]
    subst hn
    exact ⟨r, h1, h2, ⟨by rw [h2]; exact hx, by rw [h2]; exact hs, h3, by rw [h4, h2]⟩, h5⟩

/-- **C109**, values and derivatives: with increasing knots and `N ≥ 1` arrays of shape `V + (number of knots,)` the constructor succeeds, and
evaluating at the knots gives back the given arrays. -/
theorem C109_hermite {inv : InvFun K} (hinv : InvOK inv) {xk : List K} (hs : xk.Pairwise (· < ·)) (hx : 2 ≤ xk.length) (hV : 0 ∉ V)
    {args : List (NdArr K)} (ha : args ≠ []) (h : ∀ a ∈ args, a.shape = V ++ [xk.length]) :
    ∃ r, NdPw.init inv xk args = .ok r ∧ r.xk = xk ∧ NdWF r (2 * args.length) V ∧ ∃ y, r.call (of1 xk) (args.length - 1) = .ok y ∧
      y.shape = (if args.length = 1 then [] else [args.length]) ++ (V ++ [xk.length]) ∧
      ∀ v, ValidIdx V v → ∀ j < xk.length, ∀ k < args.length,
        y.get ((if args.length = 1 then [] else [k]) ++ (v ++ [j])) = (args.getD k ⟨[], fun _ => 0⟩).get (v ++ [j]) := by
  have hxn : xk ≠ [] := by rintro rfl; simp at hx
  have hC := C109_init inv xk hV fun a b => ⟨_, h a b⟩
  rw [not_desc hs] at hC
  have hl : ∀ v, ∀ r ∈ args.map (rowAt v), r.length = xk.length := by
    intro v r hr
    obtain ⟨a, ha, rfl⟩ := List.mem_map.1 hr
    exact rowAt_length (h a ha) v
  have hane : ∀ v, args.map (rowAt v) ≠ [] := by simpa using ha
  obtain ⟨r, h1, h2, h3, h4⟩ := comp_success hxn hs hV hC (N := 2 * args.length) fun v hv => by
    obtain ⟨p, hp, -, -, hn, -⟩ := C05_hermite hinv hs hx (hane v) (hl v)
    exact ⟨p, hp, by simpa using hn⟩
  refine ⟨r, h1, h2, h3, ?_⟩
  have hlen : 1 ≤ args.length := List.length_pos_iff.mpr ha
  have hrow : ∀ v, ∀ k (hk : k < args.length), ∀ j < xk.length, ((args.map (rowAt v)).map fun r => r.getD j 0).getD k 0 = (args.getD k ⟨[], fun _ => 0⟩).get (v ++ [j]) := by
    intro v k hk j hj
    rw [List.getD_eq_getElem _ _ (by simpa using hk), List.getElem_map, List.getElem_map, List.getD_eq_getElem args _ hk]
    unfold Spec.rowAt
    rw [h _ (List.getElem_mem hk), last_snoc, List.getD_eq_getElem _ _ (by simpa using hj)]
    simp
  have hev : ∀ v, ValidIdx V v → ∀ j (hj : j < xk.length), (r.comp v).callN xk[j] (args.length - 1) = (args.map (rowAt v)).map fun r => r.getD j 0 := by
    intro v hv j hj
    have := C05_eval_at_knots hinv hs hx (hane v) (hl v) (h4 v hv) j hj
    simpa using this
  by_cases c : args.length = 1
  · obtain ⟨y, g1, g2, g3⟩ := (C106_call h3 (of1 xk)).1
    refine ⟨y, by rw [c]; exact g1, by rw [if_pos c, g2]; rfl, fun v hv j hj k hk => ?_⟩
    rw [if_pos c, List.nil_append, g3 v [j] hv (valid1 hj), ← hrow v k hk j hj, ← hev v hv j hj]
    obtain rfl : k = 0 := by omega
    rw [c]
    show (r.comp v).call (xk.getD j 0) = _
    rw [List.getD_eq_getElem _ _ hj]
    rfl
  · obtain ⟨y, g1, g2, g3⟩ := (C106_call h3 (of1 xk)).2 (args.length - 1) (by omega)
    refine ⟨y, g1, by rw [if_neg c, g2, show args.length - 1 + 1 = args.length by omega]; rfl, fun v hv j hj k hk => ?_⟩
    rw [if_neg c, List.singleton_append, g3 v [j] hv (valid1 hj) k (by omega), ← hrow v k hk j hj, ← hev v hv j hj]
    show ((r.comp v).callN (xk.getD j 0) _).getD _ _ = _
    rw [List.getD_eq_getElem _ _ hj]

/-- **C109**, even degrees: `N ≥ 1` arrays of shape `V + (number of knots,)` and one of shape `V + (number of knots - 1,)` are accepted; degree `2N`. -/
theorem C109_even {inv : InvFun K} (hinv : InvOK inv) {xk : List K} (hs : xk.Pairwise (· < ·)) (hx : 2 ≤ xk.length) (hV : 0 ∉ V)
    {args : List (NdArr K)} (ha : args ≠ []) (h : ∀ a ∈ args, a.shape = V ++ [xk.length]) {z : NdArr K} (hz : z.shape = V ++ [xk.length - 1]) :
    ∃ r, NdPw.init inv xk (args ++ [z]) = .ok r ∧ r.xk = xk ∧ NdWF r (2 * args.length + 1) V ∧
      ∀ v, ValidIdx V v → PwPoly.init inv xk (args.map (rowAt v) ++ [rowAt v z]) = .ok (r.comp v) := by
  have hxn : xk ≠ [] := by rintro rfl; simp at hx
  have hC := C109_init inv xk (args := args ++ [z]) hV (by
    intro a b
    rcases List.mem_append.1 b with b | b
    · exact ⟨_, h a b⟩
    · rw [List.mem_singleton] at b
      subst b
      exact ⟨_, hz⟩)
  rw [not_desc hs] at hC
  obtain ⟨r, h1, h2, h3, h4⟩ := comp_success hxn hs hV hC (N := 2 * args.length + 1) fun v hv => by
    obtain ⟨p, hp, -, -, hn, -⟩ := C08_even_partial hinv hs hx (args := args.map (rowAt v)) (by simpa using ha) (by
      intro r hr
      obtain ⟨a, ha, rfl⟩ := List.mem_map.1 hr
      exact rowAt_length (h a ha) v) (z := rowAt v z) (by rw [rowAt_length hz]; omega)
    exact ⟨p, by simpa using hp, by simpa using hn⟩
  exact ⟨r, h1, h2, h3, fun v hv => by simpa using h4 v hv⟩

/-- **C109**, histograms: `PwPoly(xk, y)` with `y` of shape `V + (number of knots - 1,)` is `y[v, m-1]` between knots `m-1` and `m`, 0 outside, for
every component `v` and points `x` of any shape. -/
theorem C109_histogram (inv : InvFun K) {xk : List K} (hs : xk.Pairwise (· < ·)) (hx : 2 ≤ xk.length) (hV : 0 ∉ V) {y : NdArr K}
    (hy : y.shape = V ++ [xk.length - 1]) :
    ∃ r, NdPw.init inv xk [y] = .ok r ∧ NdWF r 1 V ∧ ∀ x : NdArr K, ∃ w, r.call x 0 = .ok w ∧ w.shape = V ++ x.shape ∧
      ∀ v i, ValidIdx V v → ValidIdx x.shape i → ∀ m, InPiece xk m (x.get i) → w.get (v ++ i) = if 1 ≤ m ∧ m < xk.length then y.get (v ++ [m - 1]) else 0 := by
  have hxn : xk ≠ [] := by rintro rfl; simp at hx
  have hC := C109_init inv xk (args := [y]) hV (by simpa using ⟨_, hy⟩)
  rw [not_desc hs] at hC
  have hh := fun v => C08_histogram_less inv hs (y := rowAt v y) (by
    intro h
    have := rowAt_length hy v
    rw [h] at this
    simp at this
    omega) (by rw [rowAt_length hy]; omega)
  obtain ⟨r, h1, h2, h3, h4⟩ := comp_success hxn hs hV hC (N := 1) fun v hv => by
    obtain ⟨p, hp, -, -, hn, -⟩ := hh v
    exact ⟨p, hp, hn⟩
  refine ⟨r, h1, h3, fun x => ?_⟩
  obtain ⟨w, g1, g2, g3⟩ := (C106_call h3 x).1
  refine ⟨w, g1, g2, fun v i hv hi m hm => ?_⟩
  obtain ⟨p, hp, -, -, -, hval⟩ := hh v
  have := h4 v hv
  simp only [List.map_cons, List.map_nil] at this
  rw [hp] at this
  obtain rfl := Except.ok.inj this
  rw [g3 v i hv hi, hval m _ hm]
  split
  · unfold Spec.rowAt
    rw [hy, last_snoc, List.getD_eq_getElem _ _ (by simp; omega)]
    simp
  · rfl

/-- **C109** arrays of the knots' length whose other axes differ are refused (ValueError). -/
theorem C109_shapes_error (inv : InvFun K) {xk : List K} (hs : xk.Pairwise (· < ·)) {args : List (NdArr K)}
    (h : ∀ a ∈ args, ∃ V, a.shape = V ++ [xk.length]) {a b : NdArr K} (ha : a ∈ args) (hb : b ∈ args) (hab : a.shape ≠ b.shape) :
    NdPw.init inv xk args = .error .valueError := by
  have hd := not_decr hs
  have hne : args ≠ [] := by rintro rfl; simp at ha
  unfold NdPw.init NdPw.initInc
  rw [if_neg hd]
  simp only [List.getLast?_eq_some_getLast hne]
  obtain ⟨V, hV⟩ := h _ (List.getLast_mem hne)
  rw [if_neg (by rw [hV]; simp), if_neg (by rw [hV, last_snoc]; omega)]
  unfold NdPw.initBody stack
  rw [if_neg]
  · rfl
  · intro hh
    exact hab ((hh a ha).trans (hh b hb).symm)

/-- **C109** a highest order array whose other axes differ from those of the values is refused (ValueError). -/
theorem C109_even_shape_error (inv : InvFun K) {xk : List K} (hs : xk.Pairwise (· < ·)) (hx : 2 ≤ xk.length) (hV : 0 ∉ V)
    {args : List (NdArr K)} (ha : args ≠ []) (h : ∀ a ∈ args, a.shape = V ++ [xk.length]) {z : NdArr K} {W : List ℕ}
    (hz : z.shape = W ++ [xk.length - 1]) (hW : W ≠ V) : NdPw.init inv xk (args ++ [z]) = .error .valueError := by
  unfold NdPw.init NdPw.initInc
  rw [if_neg (not_decr hs)]
  simp only [List.getLast?_append, List.getLast?_singleton, Option.some_or]
  rw [if_neg (by rw [hz]; simp), if_pos (by rw [hz, last_snoc]; omega), List.dropLast_concat, if_neg ha]
  unfold NdPw.initBody
  have hlen : 1 ≤ args.length := List.length_pos_iff.mpr ha
  simp only [stack_ok ha h, bind, Except.bind]
  have hlast : (args.length :: (V ++ [xk.length])).getD ((args.length :: (V ++ [xk.length])).length - 1) 0 = xk.length := by
    rw [show (args.length :: (V ++ [xk.length])).length - 1 = V.length + 1 by simp, List.getD_cons_succ, List.getD_append_right _ _ _ _ le_rfl]
    simp
  simp only [hlast]
  rw [if_neg (by simp)]
  have hxn : xk ≠ [] := by rintro rfl; simp at hx
  simp only [pure, Except.pure]
  rw [if_neg (by
    rintro (h | h)
    · exact hxn h
    · simp [hV] at h
      omega), if_neg (by omega), if_neg (by simp), if_neg (by omega)]
  have hrep : Rep V (⟨args.length :: (V ++ [xk.length]), fun idx => (args.getD (idx.headD 0) ⟨[], fun _ => 0⟩).get idx.tail⟩ : NdArr K) (args.length - 1 + 1)
      xk.length fun k v i => (args.getD k ⟨[], fun _ => 0⟩).get (v ++ [i]) :=
    ⟨by rw [show args.length - 1 + 1 = args.length by omega], fun _ _ _ _ _ _ => rfl⟩
  obtain ⟨a1, e1, r1⟩ := inplace_rows hrep fun k => 1 / (Nat.factorial k : K)
  have rl := slice_Rep r1 0 (xk.length - 1) (by omega)
  obtain ⟨c1, e2, r2⟩ := concat0_Rep rl (map_Rep (fun _ => 0) rl)
  have e3 : concatE 0 c1 ((z.map fun v => v * (1 / (PwPoly.evenDiv (args.length - 1) : K))).newAxis 0) = .error .valueError := by
    unfold concatE
    rw [if_neg]
    rw [r2.shape]
    rintro ⟨-, h2⟩
    have : ((z.map fun v => v * (1 / (PwPoly.evenDiv (args.length - 1) : K))).newAxis 0).shape = 1 :: (W ++ [xk.length - 1]) := by
      show z.shape.insertIdx 0 1 = _
      rw [hz]
      rfl
    rw [this] at h2
    simp only [List.eraseIdx_cons_zero] at h2
    exact hW (List.append_cancel_right h2).symm
  unfold NdPw.initPieces
  have e4 : (args.length :: (V ++ [xk.length])).length - 2 = V.length := by simp
  simp only [List.headD_cons, e4, e1, bind, Except.bind, Option.map_some, NdPw.topRows, e2, e3]

/-- **C109** data without elements is refused (IndexError). -/
theorem C109_empty_error (inv : InvFun K) {xk : List K} (hs : xk.Pairwise (· < ·)) (hV : 0 ∈ V)
    {args : List (NdArr K)} (ha : args ≠ []) (h : ∀ a ∈ args, a.shape = V ++ [xk.length]) : NdPw.init inv xk args = .error .indexError := by
  unfold NdPw.init NdPw.initInc
  rw [if_neg (not_decr hs)]
  simp only [List.getLast?_eq_some_getLast ha]
  have hz := h _ (List.getLast_mem ha)
  rw [if_neg (by rw [hz]; simp), if_neg (by rw [hz, last_snoc]; omega)]
  unfold NdPw.initBody
  simp only [stack_ok ha h, bind, Except.bind]
  rw [if_neg (by simp)]
  simp only [pure, Except.pure]
  rw [if_pos (by right; simp [hV])]
  rfl

variable {p : NdPw K}

theorem NdAux.ascending_idem (xk : List K) : ascending (ascending xk) = ascending xk := by
  by_cases h : xk.getD (xk.length - 1) 0 < xk.getD 0 0
  · have e : ascending xk = xk.reverse := if_pos h
    rw [e]
    unfold Spec.ascending
    rw [if_neg]
    rcases Nat.eq_zero_or_pos xk.length with h0 | h0
    · rw [List.length_eq_zero_iff] at h0
      subst h0
      simp
    rw [List.getD_eq_getElem _ _ (by simp; omega), List.getD_eq_getElem _ _ (by simp; omega), List.getElem_reverse, List.getElem_reverse]
    rw [List.getD_eq_getElem _ _ (by omega), List.getD_eq_getElem _ _ h0] at h
    simp only [List.length_reverse, show xk.length - 1 - (xk.length - 1) = 0 by omega, Nat.sub_zero]
    exact not_lt.2 h.le
  · have e : ascending xk = xk := if_neg h
    rw [e, e]

theorem NdAux.cw_xk {X Y : List K} (e : Y = X) {R : Except PyErr (NdPw K)} {S : List ℕ → Except PyErr (PwPoly K K)}
    (h : Componentwise V Y R S) : Componentwise V X R S := e ▸ h

/-- **C109** `reknot(xk, n)`: component by component, errors included. -/
theorem C109_reknot (inv : InvFun K) (hp : NdWF p n V) (hV : 0 ∉ V) (xk : List K) (deg : Option ℕ) :
    Componentwise V (ascending xk) (p.reknot inv xk deg) fun v => (p.comp v).reknot inv xk deg := by
  have hn' : p.c.shape.headD 0 = n := by rw [hp.shape]; rfl
  unfold NdPw.reknot PwPoly.reknot
  simp only [hn', (comp_WF_pn hp _).2.1]
  by_cases hx : xk = []
  · subst hx
    exact .inl ⟨.indexError, rfl, fun v _ => rfl⟩
  have hX : (if xk.getD (xk.length - 1) 0 < xk.getD 0 0 then xk.reverse else xk) = ascending xk := rfl
  simp only [if_neg hx, hX]
  have hXX : ascending (ascending xk) = ascending xk := ascending_idem xk
  set X := ascending xk with hXd
  set d := deg.getD (n - 1) with hd
  set h := (d - 1) / 2 with hh
  obtain ⟨c, c1, c2, c3⟩ : ∃ c, (p.call (of1 X) h >>= fun c => pure (if h = 0 then c.newAxis 0 else c)) = .ok c ∧
      c.shape = (h + 1) :: (V ++ [X.length]) ∧ ∀ v, ValidIdx V v → ∀ j < X.length, ∀ k ≤ h,
        c.get (k :: (v ++ [j])) = ((p.comp v).callN (X.getD j 0) h).getD k 0 := by
    by_cases h0 : h = 0
    · obtain ⟨y, g1, g2, g3⟩ := (C106_call hp (of1 X)).1
      refine ⟨y.newAxis 0, ?_, ?_, fun v hv j hj k hk => ?_⟩
      · rw [h0, g1]
        rfl
      · show y.shape.insertIdx 0 1 = _
        rw [g2, h0]
        rfl
      · obtain rfl : k = 0 := by omega
        show y.get ((0 :: (v ++ [j])).eraseIdx 0) = _
        rw [List.eraseIdx_cons_zero, g3 v [j] hv (valid1 hj), h0]
        rfl
    · obtain ⟨y, g1, g2, g3⟩ := (C106_call hp (of1 X)).2 h (by omega)
      refine ⟨y, ?_, g2, fun v hv j hj k hk => g3 v [j] hv (valid1 hj) k hk⟩
      rw [g1]
      show Except.ok (if h = 0 then _ else _) = _
      rw [if_neg h0]
  have hrows : ∀ v, ValidIdx V v → c.rows.map (rowAt v) = (List.range (h + 1)).map fun k => X.map fun x => ((p.comp v).callN x h).getD k 0 := by
    intro v hv
    unfold rows
    rw [c2, List.headD_cons, List.map_map]
    refine List.map_congr_left fun k hk => ?_
    rw [List.mem_range] at hk
    show rowAt v (c.row k) = _
    unfold Spec.rowAt row
    simp only [c2, List.tail_cons, last_snoc]
    refine List.ext_getElem (by simp) fun j j1 j2 => ?_
    have hj : j < X.length := by simpa using j2
    rw [List.getElem_map, List.getElem_map, List.getElem_range, c3 v hv j hj k (by omega), List.getD_eq_getElem _ _ hj]
  have hsh : ∀ a ∈ c.rows, a.shape = V ++ [X.length] := by
    intro a ha
    unfold rows at ha
    obtain ⟨k, -, rfl⟩ := List.mem_map.1 ha
    show c.shape.tail = _
    rw [c2]
    rfl
  simp only [bind, Except.bind, pure, Except.pure] at c1 ⊢
  cases hc : p.call (of1 X) h with
  | error e => rw [hc] at c1; cases c1
  | ok c' =>
    rw [hc] at c1
    have c1' := Except.ok.inj c1
    simp only [c1']
    by_cases hev : d % 2 = 0
    · obtain ⟨q, q1, q2, q3, q4⟩ := C107_deriv hp d
      set mid := List.zipWith (fun a b => (1/2 : K) * (b + a)) X X.tail with hmid
      obtain ⟨y, g1, g2, g3⟩ := (C106_call q2 (of1 mid)).1
      simp only [if_pos hev, q1, g1]
      refine cw_xk hXX (C109_init inv X (args := c.rows ++ [y]) hV ?_ |>.congr fun v hv => ?_)
      · intro a ha
        rcases List.mem_append.1 ha with ha | ha
        · exact ⟨_, hsh a ha⟩
        · rw [List.mem_singleton] at ha
          subst ha
          exact ⟨_, g2⟩
      · rw [List.map_append, hrows v hv]
        congr 2
        rw [List.map_singleton]
        congr 1
        unfold Spec.rowAt
        rw [g2, show (of1 mid).shape = [mid.length] from rfl, last_snoc]
        refine List.ext_getElem (by simp [hmid]) fun j j1 j2 => ?_
        have hj : j < mid.length := by simpa using j1
        rw [List.getElem_map, List.getElem_range, g3 v [j] hv (valid1 hj), ← q4 v hv, List.getElem_zipWith]
        show ((p.comp v).deriv d).call (mid.getD j 0) = _
        rw [List.getD_eq_getElem _ _ hj]
        simp only [hmid, List.getElem_zipWith]
    · simp only [if_neg hev]
      refine cw_xk hXX (C109_init inv X (args := c.rows) hV (fun a ha => ⟨_, hsh a ha⟩) |>.congr fun v hv => ?_)
      rw [hrows v hv]

/-! ### concrete data: two components, knots 0, 1, 3 -/

/-- values of two components at three knots: `[[0, 1, 2], [5, 7, 9]]`-like data, `y[v, i] = 5 v + (v + 1) i` -/
def ndY : NdArr ℚ := ⟨[2, 3], fun idx => 5 * idx.getD 0 0 + (idx.getD 0 0 + 1) * idx.getD 1 0⟩
/-- slopes -/
def ndS : NdArr ℚ := ⟨[2, 3], fun idx => idx.getD 0 0 - idx.getD 1 0⟩
/-- one value per interval -/
def ndZ : NdArr ℚ := ⟨[2, 2], fun idx => 1 + idx.getD 0 0 + 3 * idx.getD 1 0⟩

/-- values and slopes: a cubic in each component, with the data at the knots -/
example : ∃ r, NdPw.init (adjInv ℚ) [0, 1, 3] [ndY, ndS] = .ok r ∧ NdWF r 4 [2] ∧ ∃ y, r.call (of1 [0, 1, 3]) 1 = .ok y ∧ y.shape = [2, 2, 3] ∧
    y.get [0, 1, 2] = 9 ∧ y.get [1, 0, 2] = -2 := by
  obtain ⟨r, h1, -, h2, y, h3, h4, h5⟩ := C109_hermite (V := [2]) (adjInv_ok (K := ℚ)) (xk := [0, 1, 3]) (by decide) (by simp) (by simp)
    (args := [ndY, ndS]) (by simp) (by simp [ndY, ndS])
  refine ⟨r, h1, h2, y, h3, h4, ?_, ?_⟩
  · exact (h5 [1] ⟨rfl, by simp⟩ 2 (by simp) 0 (by simp)).trans (by norm_num [ndY])
  · exact (h5 [0] ⟨rfl, by simp⟩ 2 (by simp) 1 (by simp)).trans (by norm_num [ndS])

/-- even degree -/
example : ∃ r, NdPw.init (adjInv ℚ) [0, 1, 3] [ndY, ndZ] = .ok r ∧ NdWF r 3 [2] := by
  obtain ⟨r, h1, -, h2, -⟩ := C109_even (V := [2]) (adjInv_ok (K := ℚ)) (xk := [0, 1, 3]) (by decide) (by simp) (by simp)
    (args := [ndY]) (by simp) (by simp [ndY]) (z := ndZ) rfl
  exact ⟨r, h1, h2⟩

/-- histogram: component 1 at 2 is `z[1, 1]` = 5 -/
example : ∃ r, NdPw.init (adjInv ℚ) [0, 1, 3] [ndZ] = .ok r ∧ ∃ w, r.call (of1 [2]) 0 = .ok w ∧ w.get [1, 0] = 5 := by
  obtain ⟨r, h1, -, h2⟩ := C109_histogram (V := [2]) (adjInv ℚ) (xk := [0, 1, 3]) (by decide) (by simp) (by simp) (y := ndZ) rfl
  obtain ⟨w, w1, -, w2⟩ := h2 (of1 [2])
  refine ⟨r, h1, w, w1, (w2 [1] [0] ⟨rfl, by simp⟩ ⟨rfl, by simp [of1]⟩ 2 ⟨by simp, ?_, ?_⟩).trans (by norm_num [ndZ])⟩
  · rintro (_ | _ | k) hk
    · norm_num [of1]
    · norm_num [of1]
    · omega
  · rintro (_ | _ | _ | k) hk h2
    · omega
    · omega
    · norm_num [of1]
    · exact absurd hk (by simp)

/-- values for two components, slopes for three: refused -/
example : NdPw.init (adjInv ℚ) [0, 1, 3] [ndY, ⟨[3, 3], fun _ => 0⟩] = .error .valueError :=
  C109_shapes_error _ (by decide) (by
    intro a ha
    rcases List.mem_pair.1 ha with rfl | rfl
    · exact ⟨[2], rfl⟩
    · exact ⟨[3], rfl⟩) (List.mem_cons_self) (List.mem_cons_of_mem _ List.mem_cons_self) (by simp [ndY])

example : NdPw.init (adjInv ℚ) [0, 1, 3] [ndY, ⟨[3, 2], fun _ => 0⟩] = .error .valueError :=
  C109_even_shape_error (V := [2]) _ (by decide) (by simp) (by simp) (args := [ndY]) (by simp) (by simp [ndY]) (W := [3]) rfl (by simp)

example : NdPw.init (adjInv ℚ) [0, 1, 3] [⟨[0, 3], fun _ => 0⟩] = .error .indexError :=
  C109_empty_error (V := [0]) _ (by decide) (by simp) (by simp) (by simp)

/-- the conclusion of `C109_init` is success for the decreasing knots too, and of `C109_reknot` for the example of Props/PolyNd -/
example : (NdPw.init (adjInv ℚ) [3, 1, 0] [ndY]).toOption.isSome ∧ (NdPw.init (adjInv ℚ) [3, 1, 0] [ndY, ndZ]).toOption.isNone := by
  constructor
  · rcases C109_init (V := [2]) (adjInv ℚ) [3, 1, 0] (args := [ndY]) (by simp) (by simpa using ⟨3, rfl⟩) with ⟨e, -, h⟩ | ⟨r, n, h, -⟩
    · have : PwPoly.init (adjInv ℚ) [3, 1, 0] ([ndY].map (rowAt [0])) = .error e := h [0] ⟨rfl, by simp⟩
      rw [C07_decreasing_partial (adjInv ℚ) (by decide) (by simp) 3 (by simp [Spec.rowAt, ndY])] at this
      obtain ⟨q, hq, -⟩ := C05_hermite (adjInv_ok (K := ℚ)) (xk := [0, 1, 3]) (by decide) (by simp)
        (args := ([ndY].map (rowAt [0])).map List.reverse) (by simp) (by simp [Spec.rowAt, ndY])
      exact absurd (hq.symm.trans this) (by simp)
    · rw [h]; rfl
  · rfl

example : ∃ r, ndEx.reknot (adjInv ℚ) [2, 1/2, 0] (some 1) = .ok r ∧ r.xk = [0, 1/2, 2] ∧ NdWF r 2 [2] := by
  have hC := C109_reknot (adjInv ℚ) ndEx_WF (by simp) [2, 1/2, 0] (some 1)
  have e : ascending ([2, 1/2, 0] : List ℚ) = [0, 1/2, 2] := by norm_num [Spec.ascending]
  rw [e] at hC
  obtain ⟨r, h1, h2, h3, -⟩ := comp_success (by simp) (by norm_num) (by simp) hC (N := 2) fun v _ => by
    rw [show (ndEx.comp v).reknot (adjInv ℚ) [2, 1/2, 0] (some 1) = (ndEx.comp v).reknot (adjInv ℚ) [0, 1/2, 2] (some 1) from by
      unfold PwPoly.reknot
      norm_num
      rfl]
    obtain ⟨q, hq, -, -, hn, -⟩ := C13_reknot_odd_partial (adjInv_ok (K := ℚ)) (comp_WF_pn ndEx_WF v).1 (xk := [0, 1/2, 2]) (by norm_num) (by simp)
      (n := 1) rfl (.inr rfl)
    exact ⟨q, hq, hn⟩
  exact ⟨r, h1, h2, h3⟩

end Npplus
