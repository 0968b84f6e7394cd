import Verif.Model.PwIndex
import Verif.Spec.Slice
import Verif.Props.PwNd

/-!
# Property C110: components selected with any basic index; iteration
-/

set_option linter.unusedSectionVars false
namespace Npplus
open Spec NdArr NdAux

variable {K : Type} [Field K] [LinearOrder K] [IsStrictOrderedRing K]
variable {n : ℕ} {V : List ℕ} {p : NdPw K}

namespace NdAux

theorem sliceIdx_colon (d : ℕ) : sliceIdx d none none none = .ok (List.range d) := by
  unfold sliceIdx sliceBounds
  simp [bind, Except.bind, pure, Except.pure]

/-- every index selected by a slice is an index of the axis -/
theorem sliceIdx_lt {d : ℕ} {a b s : Option ℤ} {l : List ℕ} (h : sliceIdx d a b s = .ok l) : ∀ i ∈ l, i < d := by
  unfold sliceIdx at h
  cases hb : sliceBounds d a b s with
  | error e => rw [hb] at h; cases h
  | ok r =>
    obtain ⟨A, B, S⟩ := r
    rw [hb] at h
    simp only [bind, Except.bind, pure, Except.pure] at h
    obtain rfl := Except.ok.inj h
    have key : (S < 0 → A ≤ d - 1 ∧ -1 ≤ B) ∧ (0 < S → 0 ≤ A ∧ B ≤ d) ∧ S ≠ 0 := by
      unfold sliceBounds at hb
      simp only at hb
      split at hb
      · cases hb
      · rename_i hs
        have := Except.ok.inj hb
        simp only [Prod.mk.injEq] at this
        obtain ⟨h1, h2, h3⟩ := this
        subst h3
        refine ⟨fun hn => ?_, fun hn => ?_, hs⟩
        · rw [if_pos hn] at h1 h2
          simp only [if_pos hn] at h1 h2
          constructor
          · rw [← h1]
            cases a with
            | none => simp
            | some a =>
              simp only [Option.map_some, Option.getD_some]
              split_ifs <;> omega
          · rw [← h2]
            cases b with
            | none => simp
            | some b =>
              simp only [Option.map_some, Option.getD_some]
              split_ifs <;> omega
        · have hn' : ¬ s.getD 1 < 0 := by omega
          simp only [if_neg hn'] at h1 h2
          constructor
          · rw [← h1]
            cases a with
            | none => simp
            | some a =>
              simp only [Option.map_some, Option.getD_some]
              split_ifs <;> omega
          · rw [← h2]
            cases b with
            | none => simp
            | some b =>
              simp only [Option.map_some, Option.getD_some]
              split_ifs <;> omega
    intro i hi
    obtain ⟨k, hk, rfl⟩ := List.mem_map.1 hi
    rw [List.mem_range] at hk
    by_cases hS : S < 0
    · rw [if_pos hS] at hk
      have h1 : (k : ℤ) + 1 ≤ (A - B - S - 1) / (-S) := by omega
      rw [Int.le_ediv_iff_mul_le (by omega)] at h1
      obtain ⟨h2, h3⟩ := key.1 hS
      have h4 : (k : ℤ) * S ≤ 0 := mul_nonpos_of_nonneg_of_nonpos (by omega) hS.le
      have h5 : (k + 1 : ℤ) * -S = - (k * S) - S := by ring
      omega
    · rw [if_neg hS] at hk
      have hS' : 0 < S := by have := key.2.2; omega
      have h1 : (k : ℤ) + 1 ≤ (B - A + S - 1) / S := by omega
      rw [Int.le_ediv_iff_mul_le hS'] at h1
      obtain ⟨h2, h3⟩ := key.2.1 hS'
      have h4 : (0 : ℤ) ≤ k * S := mul_nonneg (by omega) hS'.le
      have h5 : (k + 1 : ℤ) * S = k * S + S := by ring
      omega

theorem valid_split : ∀ {s t idx : List ℕ}, ValidIdx (s ++ t) idx → ∃ u i, idx = u ++ i ∧ ValidIdx s u ∧ ValidIdx t i
  | [], _, idx, h => ⟨[], idx, rfl, ⟨rfl, by simp⟩, h⟩
  | d :: s, t, idx, h => by
    obtain ⟨k, r, rfl⟩ := List.exists_cons_of_ne_nil (l := idx) (by rintro rfl; have := h.1; simp at this)
    obtain ⟨h1, h2⟩ := validIdx_cons_iff.1 h
    obtain ⟨u, i, rfl, hu, hi⟩ := valid_split h2
    exact ⟨k :: u, i, rfl, validIdx_cons_iff.2 ⟨h1, hu⟩, hi⟩

theorem valid_tail {t : List ℕ} {d : ℕ} {u : List ℕ} (h : ValidIdx (d :: t) u) : u.headD 0 < d ∧ ValidIdx t u.tail := by
  obtain ⟨a, r, rfl⟩ := List.exists_cons_of_ne_nil (l := u) (by
    rintro rfl
    have := h.1
    simp at this)
  exact validIdx_cons_iff.1 h

/-- elements of `a[key]` are elements of `a` -/
theorem select_valid {key : List Key} (hk : Key.ellipsis ∉ key) {V t : List ℕ} {f} (h : select key V = .ok (t, f)) :
    ∀ u, ValidIdx t u → ValidIdx V (f u) := by
  induction key generalizing V t f with
  | nil =>
    obtain ⟨rfl, rfl⟩ := Prod.mk.inj (Except.ok.inj h)
    exact fun u hu => hu
  | cons a ks ih =>
    have hks : Key.ellipsis ∉ ks := fun h' => hk (List.mem_cons_of_mem _ h')
    cases a with
    | ellipsis => exact absurd List.mem_cons_self hk
    | newaxis =>
      unfold select at h
      cases hs : select ks V with
      | error e => rw [hs] at h; cases h
      | ok r =>
        obtain ⟨t', f'⟩ := r
        rw [hs] at h
        obtain ⟨rfl, rfl⟩ := Prod.mk.inj (Except.ok.inj h)
        exact fun u hu => ih hks hs _ (valid_tail hu).2
    | int i =>
      cases V with
      | nil => unfold select at h; cases h
      | cons d s =>
        unfold select at h
        cases hi : npIndex d i with
        | none => rw [hi] at h; cases h
        | some j =>
          rw [hi] at h
          cases hs : select ks s with
          | error e => simp only [hs] at h; cases h
          | ok r =>
            obtain ⟨t', f'⟩ := r
            simp only [hs] at h
            obtain ⟨rfl, rfl⟩ := Prod.mk.inj (Except.ok.inj h)
            exact fun u hu => validIdx_cons_iff.2 ⟨j.2, ih hks hs _ hu⟩
    | slice a b c =>
      cases V with
      | nil => unfold select at h; cases h
      | cons d s =>
        unfold select at h
        cases hl : sliceIdx d a b c with
        | error e => rw [hl] at h; cases h
        | ok l =>
          rw [hl] at h
          cases hs : select ks s with
          | error e => simp only [hs] at h; cases h
          | ok r =>
            obtain ⟨t', f'⟩ := r
            simp only [hs] at h
            obtain ⟨rfl, rfl⟩ := Prod.mk.inj (Except.ok.inj h)
            intro u hu
            obtain ⟨h1, h2⟩ := valid_tail hu
            refine validIdx_cons_iff.2 ⟨?_, ih hks hs _ h2⟩
            rw [List.getD_eq_getElem _ _ h1]
            exact sliceIdx_lt hl _ (List.getElem_mem _)

/-- a key without `...` followed by keys which take the remaining axes whole -/
theorem select_append {rest : List Key} {T : List ℕ}
    (H : ∀ V', ∃ g, select (Key.ellipsis :: rest) (V' ++ T) = .ok (V' ++ T, g) ∧ ∀ u i, ValidIdx V' u → ValidIdx T i → g (u ++ i) = u ++ i)
    {key : List Key} (hk : Key.ellipsis ∉ key) {V : List ℕ} (hV : keyAxes key ≤ V.length) :
    (∀ e, select key V = .error e → select (key ++ Key.ellipsis :: rest) (V ++ T) = .error e) ∧
    ∀ t f, select key V = .ok (t, f) → ∃ g, select (key ++ Key.ellipsis :: rest) (V ++ T) = .ok (t ++ T, g) ∧
      ∀ u i, ValidIdx t u → ValidIdx T i → g (u ++ i) = f u ++ i := by
  induction key generalizing V with
  | nil =>
    refine ⟨fun e h => (by cases h), fun t f h => ?_⟩
    obtain ⟨rfl, rfl⟩ := Prod.mk.inj (Except.ok.inj h)
    exact H V
  | cons a ks ih =>
    have hks : Key.ellipsis ∉ ks := fun h' => hk (List.mem_cons_of_mem _ h')
    cases a with
    | ellipsis => exact absurd List.mem_cons_self hk
    | newaxis =>
      obtain ⟨i1, i2⟩ := ih hks (V := V) hV
      rw [List.cons_append, select, select]
      cases hs : select ks V with
      | error e =>
        rw [i1 e hs]
        exact ⟨fun e h => h, fun t f h => by cases h⟩
      | ok r =>
        obtain ⟨t', f'⟩ := r
        obtain ⟨g, h1, h2⟩ := i2 t' f' hs
        rw [h1]
        refine ⟨fun e h => (by cases h), fun t f h => ?_⟩
        obtain ⟨rfl, rfl⟩ := Prod.mk.inj (Except.ok.inj h)
        refine ⟨_, rfl, fun u i hu hi => ?_⟩
        obtain ⟨x, r, rfl⟩ := List.exists_cons_of_ne_nil (l := u) (by rintro rfl; have := hu.1; simp at this)
        exact h2 r i (valid_tail hu).2 hi
    | int j =>
      cases V with
      | nil => simp [keyAxes] at hV
      | cons d s =>
        obtain ⟨i1, i2⟩ := ih hks (V := s) (by simp [keyAxes] at hV; omega)
        rw [List.cons_append, List.cons_append, select, select]
        cases hj : npIndex d j with
        | none => exact ⟨fun e h => h, fun t f h => by cases h⟩
        | some m =>
          cases hs : select ks s with
          | error e =>
            simp only [i1 e hs]
            exact ⟨fun e h => h, fun t f h => by cases h⟩
          | ok r =>
            obtain ⟨t', f'⟩ := r
            obtain ⟨g, h1, h2⟩ := i2 t' f' hs
            simp only [h1]
            refine ⟨fun e h => (by cases h), fun t f h => ?_⟩
            obtain ⟨rfl, rfl⟩ := Prod.mk.inj (Except.ok.inj h)
            refine ⟨_, rfl, fun u i hu hi => ?_⟩
            simp only [h2 u i hu hi, List.cons_append]
    | slice a b c =>
      cases V with
      | nil => simp [keyAxes] at hV
      | cons d s =>
        obtain ⟨i1, i2⟩ := ih hks (V := s) (by simp [keyAxes] at hV; omega)
        rw [List.cons_append, List.cons_append, select, select]
        cases hl : sliceIdx d a b c with
        | error e => exact ⟨fun e h => h, fun t f h => by cases h⟩
        | ok l =>
          cases hs : select ks s with
          | error e =>
            simp only [i1 e hs]
            exact ⟨fun e h => h, fun t f h => by cases h⟩
          | ok r =>
            obtain ⟨t', f'⟩ := r
            obtain ⟨g, h1, h2⟩ := i2 t' f' hs
            simp only [h1]
            refine ⟨fun e h => (by cases h), fun t f h => ?_⟩
            obtain ⟨rfl, rfl⟩ := Prod.mk.inj (Except.ok.inj h)
            refine ⟨_, rfl, fun u i hu hi => ?_⟩
            obtain ⟨x, r, rfl⟩ := List.exists_cons_of_ne_nil (l := u) (by rintro rfl; have := hu.1; simp at this)
            simp only [List.cons_append, List.headD_cons, List.tail_cons, h2 r i (valid_tail hu).2 hi]

theorem rest_nil (T : List ℕ) : ∀ V', ∃ g, select [Key.ellipsis] (V' ++ T) = .ok (V' ++ T, g) ∧
    ∀ u i, ValidIdx V' u → ValidIdx T i → g (u ++ i) = u ++ i := by
  intro V'
  refine ⟨fun idx => idx.take (V' ++ T).length ++ idx.drop (V' ++ T).length, ?_, fun u i _ _ => List.take_append_drop _ _⟩
  simp [select, keyAxes, bind, Except.bind, pure, Except.pure]

theorem rest_colon (L : ℕ) : ∀ V', ∃ g, select [Key.ellipsis, Key.colon] (V' ++ [L]) = .ok (V' ++ [L], g) ∧
    ∀ u i, ValidIdx V' u → ValidIdx [L] i → g (u ++ i) = u ++ i := by
  intro V'
  refine ⟨fun idx => idx.take V'.length ++ (List.range L).getD ((idx.drop V'.length).headD 0) 0 :: (idx.drop V'.length).tail, ?_, fun u i hu hi => ?_⟩
  · simp [select, keyAxes, Key.colon, sliceIdx_colon, bind, Except.bind, pure, Except.pure]
  · obtain ⟨h1, h2⟩ := valid_tail hi
    have hd : (u ++ i).drop V'.length = i := by rw [← hu.1, List.drop_left]
    have ht : (u ++ i).take V'.length = u := by rw [← hu.1, List.take_left]
    simp only [hd, ht]
    obtain ⟨x, r, rfl⟩ := List.exists_cons_of_ne_nil (l := i) (by rintro rfl; have := hi.1; simp at this)
    simp only [List.headD_cons, List.tail_cons] at h1 ⊢
    rw [List.getD_eq_getElem _ _ (by simpa using h1)]
    simp

theorem keyAxes_append (k l : List Key) : keyAxes (k ++ l) = keyAxes k + keyAxes l := by
  induction k with
  | nil => simp [keyAxes]
  | cons a k ih => cases a <;> simp [keyAxes, ih] <;> omega

theorem index_ok {α : Type} {key : List Key} (hk : Key.ellipsis ∉ key) {a : NdArr α} {rest : List Key} {T V : List ℕ} (hs : a.shape = V ++ T)
    (H : ∀ V', ∃ g, select (Key.ellipsis :: rest) (V' ++ T) = .ok (V' ++ T, g) ∧ ∀ u i, ValidIdx V' u → ValidIdx T i → g (u ++ i) = u ++ i)
    (hr : Key.ellipsis ∉ rest) (hT : keyAxes rest ≤ T.length) (hV : keyAxes key ≤ V.length) :
    (∀ e, select key V = .error e → a.index (key ++ Key.ellipsis :: rest) = .error e) ∧
    ∀ t f, select key V = .ok (t, f) → ∃ w, a.index (key ++ Key.ellipsis :: rest) = .ok w ∧ w.shape = t ++ T ∧
      ∀ u i, ValidIdx t u → ValidIdx T i → w.get (u ++ i) = a.get (f u ++ i) := by
  obtain ⟨h1, h2⟩ := select_append H hk hV
  have c : ¬ 1 < (key ++ Key.ellipsis :: rest).count .ellipsis := by
    rw [List.count_append, List.count_cons_self, List.count_eq_zero.2 hk, List.count_eq_zero.2 hr]
    omega
  have d : ¬ a.shape.length < keyAxes (key ++ Key.ellipsis :: rest) := by
    rw [keyAxes_append, hs, List.length_append]
    show ¬ _ < _ + keyAxes rest
    omega
  unfold index
  rw [if_neg c, if_neg d, hs]
  refine ⟨fun e h => ?_, fun t f h => ?_⟩
  · simp only [h1 e h]
    rfl
  · obtain ⟨g, g1, g2⟩ := h2 t f h
    simp only [g1]
    refine ⟨_, rfl, rfl, fun u i hu hi => ?_⟩
    show a.get (g (u ++ i)) = _
    rw [g2 u i hu hi]

theorem select_colon_cons (d : ℕ) (ks : List Key) (s : List ℕ) :
    (∀ e, select ks s = .error e → select (Key.colon :: ks) (d :: s) = .error e) ∧
    ∀ t f, select ks s = .ok (t, f) → select (Key.colon :: ks) (d :: s) = .ok (d :: t, fun idx => (List.range d).getD (idx.headD 0) 0 :: f idx.tail) := by
  unfold Key.colon
  rw [select, sliceIdx_colon]
  refine ⟨fun e h => ?_, fun t f h => ?_⟩
  · simp only [h]
    rfl
  · simp only [h]
    simp [bind, Except.bind, pure, Except.pure]

end NdAux

open NdAux

/-- `t` is the shape of `a[key]` and `f` gives the index into `a` of its elements, for an array `a` of shape `V` -/
abbrev Spec.Selects (key : List Key) (V t : List ℕ) (f : List ℕ → List ℕ) : Prop := select key V = .ok (t, f)

/-- what `p[key]` is, in terms of the components -/
theorem NdAux.getitem_nd (hp : NdWF p n V) {key : List Key} (hk : Key.ellipsis ∉ key) (hV : keyAxes key ≤ V.length) :
    (∀ e, select key V = .error e → p.getitem key = .error e) ∧
    ∀ t f, select key V = .ok (t, f) → ∃ q, p.getitem key = .ok q ∧ NdWF q n t ∧ q.xk = p.xk ∧ ∀ u, ValidIdx t u → q.comp u = p.comp (f u) := by
  have hk' : Key.ellipsis ∉ Key.colon :: key := by
    rw [List.mem_cons]
    rintro (h | h)
    · cases h
    · exact hk h
  obtain ⟨h1, h2⟩ := index_ok (a := p.c) (V := n :: V) (T := [p.xk.length + 1]) (rest := [Key.colon]) hk' (by rw [hp.shape]; rfl)
    (rest_colon _) (by simp [Key.colon]) (by simp [keyAxes, Key.colon]) (by simp [keyAxes, Key.colon, hV])
  obtain ⟨s1, s2⟩ := select_colon_cons n key V
  unfold NdPw.getitem
  have e0 : [Key.colon] ++ key ++ [Key.ellipsis, Key.colon] = (Key.colon :: key) ++ Key.ellipsis :: [Key.colon] := rfl
  rw [e0]
  refine ⟨fun e h => ?_, fun t f h => ?_⟩
  · rw [h1 e (s1 e h)]
    rfl
  · obtain ⟨w, w1, w2, w3⟩ := h2 _ _ (s2 t f h)
    rw [w1]
    have hw : NdWF (⟨p.xk, w⟩ : NdPw K) n t := ⟨hp.ne, hp.inc, hp.pos, w2⟩
    refine ⟨⟨p.xk, w⟩, rfl, hw, rfl, fun u hu => ?_⟩
    unfold NdPw.comp
    simp only [w2, hp.shape, List.cons_append, List.headD_cons, PwPoly.mk.injEq, true_and]
    refine List.map_congr_left fun i hi => List.map_congr_left fun j hj => ?_
    rw [List.mem_range] at hi hj
    have := w3 (j :: u) [i] (validIdx_cons_iff.2 ⟨hj, hu⟩) (valid1 hi)
    rw [List.cons_append] at this
    rw [this]
    simp only [List.headD_cons, List.tail_cons]
    rw [List.getD_eq_getElem _ _ (by simpa using hj), List.getElem_range]
    rfl

/-- **C110** `p[key](x)` is `p(x)[key + (...,)]` for every basic index (integers, slices, `newaxis`) with at most as many axes as the components have, and
points `x` of any shape: the same exception, or the same array. -/
theorem C110_getitem (hp : NdWF p n V) {key : List Key} (hk : Key.ellipsis ∉ key) (hV : keyAxes key ≤ V.length) (x : NdArr K) :
    ∃ z, p.call x 0 = .ok z ∧
      ((∃ e, p.getitem key = .error e ∧ z.index (key ++ [Key.ellipsis]) = .error e) ∨
       ∃ q t y w, p.getitem key = .ok q ∧ NdWF q n t ∧ q.xk = p.xk ∧ q.call x 0 = .ok y ∧ z.index (key ++ [Key.ellipsis]) = .ok w ∧ y.Same w) := by
  obtain ⟨z, z1, z2, z3⟩ := (C106_call hp x).1
  refine ⟨z, z1, ?_⟩
  obtain ⟨g1, g2⟩ := getitem_nd hp hk hV
  obtain ⟨i1, i2⟩ := index_ok (a := z) (rest := []) hk z2 (rest_nil _) (by simp) (by simp [keyAxes]) hV
  cases hs : select key V with
  | error e => exact .inl ⟨e, g1 e hs, i1 e hs⟩
  | ok r =>
    obtain ⟨t, f⟩ := r
    obtain ⟨q, q1, q2, q3, q4⟩ := g2 t f hs
    obtain ⟨w, w1, w2, w3⟩ := i2 t f hs
    obtain ⟨y, y1, y2, y3⟩ := (C106_call q2 x).1
    refine .inr ⟨q, t, y, w, q1, q2, q3, y1, w1, by rw [y2, w2], fun idx hidx => ?_⟩
    rw [y2] at hidx
    obtain ⟨u, i, rfl, hu, hi⟩ := valid_split hidx
    rw [y3 u i hu hi, w3 u i hu hi, z3 _ i (select_valid hk hs u hu) hi, q4 u hu]

/-- **C110**, derivatives: `p[key](x, nd)` is `p(x, nd)[(:,) + key + (...,)]`. -/
theorem C110_derivatives (hp : NdWF p n V) {key : List Key} (hk : Key.ellipsis ∉ key) (hV : keyAxes key ≤ V.length) (x : NdArr K) {nd : ℕ} (hnd : 1 ≤ nd) :
    ∃ z, p.call x nd = .ok z ∧
      ((∃ e, p.getitem key = .error e ∧ z.index (Key.colon :: key ++ [Key.ellipsis]) = .error e) ∨
       ∃ q y w, p.getitem key = .ok q ∧ q.call x nd = .ok y ∧ z.index (Key.colon :: key ++ [Key.ellipsis]) = .ok w ∧ y.Same w) := by
  obtain ⟨z, z1, z2, z3⟩ := (C106_call hp x).2 nd hnd
  refine ⟨z, z1, ?_⟩
  obtain ⟨g1, g2⟩ := getitem_nd hp hk hV
  have hk' : Key.ellipsis ∉ Key.colon :: key := by
    rw [List.mem_cons]
    rintro (h | h)
    · cases h
    · exact hk h
  obtain ⟨i1, i2⟩ := index_ok (a := z) (rest := []) (V := (nd + 1) :: V) hk' (by rw [z2]; rfl) (rest_nil _) (by simp) (by simp [keyAxes])
    (by simp [keyAxes, Key.colon, hV])
  obtain ⟨s1, s2⟩ := select_colon_cons (nd + 1) key V
  cases hs : select key V with
  | error e => exact .inl ⟨e, g1 e hs, i1 e (s1 e hs)⟩
  | ok r =>
    obtain ⟨t, f⟩ := r
    obtain ⟨q, q1, q2, q3, q4⟩ := g2 t f hs
    obtain ⟨w, w1, w2, w3⟩ := i2 _ _ (s2 t f hs)
    obtain ⟨y, y1, y2, y3⟩ := (C106_call q2 x).2 nd hnd
    refine .inr ⟨q, y, w, q1, y1, w1, by rw [y2, w2]; rfl, fun idx hidx => ?_⟩
    rw [y2] at hidx
    obtain ⟨k, r, rfl⟩ := List.exists_cons_of_ne_nil (l := idx) (by rintro rfl; have := hidx.1; simp at this)
    obtain ⟨h1, h2⟩ := validIdx_cons_iff.1 hidx
    obtain ⟨u, i, rfl, hu, hi⟩ := valid_split h2
    rw [y3 u i hu hi k (by omega), q4 u hu, ← z3 _ i (select_valid hk hs u hu) hi k (by omega)]
    have := w3 (k :: u) i (validIdx_cons_iff.2 ⟨h1, hu⟩) hi
    rw [List.cons_append] at this
    rw [this]
    simp only [List.headD_cons, List.tail_cons]
    rw [List.getD_eq_getElem _ _ (by simpa using h1), List.getElem_range]
    rfl

/-- **C110** more keys than the components have axes: IndexError (also when `p(x)` would have enough axes). -/
theorem C110_too_many_error (hp : NdWF p n V) {key : List Key} (hV : V.length < keyAxes key) : p.getitem key = .error .indexError := by
  unfold NdPw.getitem index
  by_cases c : 1 < ([Key.colon] ++ key ++ [Key.ellipsis, Key.colon]).count .ellipsis
  · rw [if_pos c]
    rfl
  · rw [if_neg c, if_pos]
    · rfl
    · rw [keyAxes_append, keyAxes_append, hp.shape]
      simp [keyAxes, Key.colon]
      omega

/-- **C110** an index containing `...` is always refused (IndexError), although `p(x)[..., 0]` is fine: the code adds an Ellipsis of its own. -/
theorem C110_ellipsis_fails (p : NdPw K) {key : List Key} (hk : Key.ellipsis ∈ key) : p.getitem key = .error .indexError := by
  unfold NdPw.getitem index
  rw [if_pos]
  · rfl
  · rw [List.count_append, List.count_append]
    have := List.count_pos_iff.2 hk
    simp [Key.colon]
    omega

/-- **C110** `p[i]`: component `i`; negative `i` counts from the end; other integers raise IndexError. -/
theorem C110_int {d : ℕ} (hp : NdWF p n (d :: V)) (i : ℤ) :
    (0 ≤ i → i < d → ∃ q, p.getitem [.int i] = .ok q ∧ NdWF q n V ∧ q.xk = p.xk ∧ ∀ v, ValidIdx V v → q.comp v = p.comp (i.toNat :: v)) ∧
    (i < 0 → -d ≤ i → ∃ q, p.getitem [.int i] = .ok q ∧ NdWF q n V ∧ q.xk = p.xk ∧ ∀ v, ValidIdx V v → q.comp v = p.comp ((i + d).toNat :: v)) ∧
    (i < -d ∨ d ≤ i → p.getitem [.int i] = .error .indexError) := by
  obtain ⟨g1, g2⟩ := getitem_nd hp (key := [.int i]) (by simp) (by simp [keyAxes])
  refine ⟨fun h1 h2 => ?_, fun h1 h2 => ?_, fun h => ?_⟩
  · have : npIndex d i = some ⟨i.toNat, by omega⟩ := by unfold npIndex; rw [dif_pos ⟨h1, h2⟩]
    exact g2 V (fun idx => i.toNat :: idx) (by simp [select, this, bind, Except.bind, pure, Except.pure])
  · have : npIndex d i = some ⟨(i + d).toNat, by omega⟩ := by unfold npIndex; rw [dif_neg (by omega), dif_pos ⟨h1, h2⟩]
    exact g2 V (fun idx => (i + d).toNat :: idx) (by simp [select, this, bind, Except.bind, pure, Except.pure])
  · have : npIndex d i = none := by unfold npIndex; rw [dif_neg (by omega), dif_neg (by omega)]
    exact g1 _ (by simp [select, this])

namespace NdAux

theorem range_up {d : ℕ} {a b s : ℤ} (hs : 0 < s) (ha : 0 ≤ a) (hb : b ≤ d) :
    let l := (List.range ((b - a + s - 1) / s).toNat).map fun k : ℕ => (a + (k : ℤ) * s).toNat
    l.Pairwise (· < ·) ∧ ∀ x : ℕ, x ∈ l ↔ x < d ∧ a ≤ x ∧ (x : ℤ) < b ∧ s ∣ (x - a) := by
  have key : ∀ k : ℕ, k < ((b - a + s - 1) / s).toNat ↔ (k : ℤ) * s < b - a := by
    intro k
    rw [← Int.ofNat_lt]
    constructor
    · intro h
      have h1 : (k : ℤ) + 1 ≤ (b - a + s - 1) / s := by omega
      have := (Int.le_ediv_iff_mul_le hs).1 h1
      linarith [add_mul (k : ℤ) 1 s]
    · intro h
      have h1 : (k : ℤ) + 1 ≤ (b - a + s - 1) / s := (Int.le_ediv_iff_mul_le hs).2 (by rw [add_mul]; omega)
      omega
  constructor
  · rw [List.pairwise_map]
    refine List.pairwise_lt_range.imp fun {i j} h => ?_
    have h1 : (i : ℤ) * s < j * s := mul_lt_mul_of_pos_right (by exact_mod_cast h) hs
    have h2 : 0 ≤ (i : ℤ) * s := mul_nonneg (by positivity) hs.le
    omega
  · intro x
    simp only [List.mem_map, List.mem_range]
    constructor
    · rintro ⟨k, hk, rfl⟩
      have h2 : 0 ≤ (k : ℤ) * s := mul_nonneg (by positivity) hs.le
      have h3 := (key k).1 hk
      rw [Int.toNat_of_nonneg (by omega)]
      exact ⟨by omega, by omega, by omega, ⟨k, by ring⟩⟩
    · rintro ⟨-, h1, h2, m, hm⟩
      have hm0 : 0 ≤ m := by
        by_contra hc
        have := mul_neg_of_pos_of_neg hs (not_le.1 hc)
        omega
      refine ⟨m.toNat, (key _).2 ?_, ?_⟩
      · rw [Int.toNat_of_nonneg hm0, mul_comm]; omega
      · rw [Int.toNat_of_nonneg hm0, mul_comm]; omega

theorem range_down {d : ℕ} {a b s : ℤ} (hs : s < 0) (ha : a < d) (hb : -1 ≤ b) :
    let l := (List.range ((a - b - s - 1) / (-s)).toNat).map fun k : ℕ => (a + (k : ℤ) * s).toNat
    l.Pairwise (· > ·) ∧ ∀ x : ℕ, x ∈ l ↔ x < d ∧ (x : ℤ) ≤ a ∧ b < (x : ℤ) ∧ s ∣ (a - x) := by
  have key : ∀ k : ℕ, k < ((a - b - s - 1) / (-s)).toNat ↔ (k : ℤ) * (-s) < a - b := by
    intro k
    rw [← Int.ofNat_lt]
    constructor
    · intro h
      have h1 : (k : ℤ) + 1 ≤ (a - b - s - 1) / (-s) := by omega
      have := (Int.le_ediv_iff_mul_le (by omega)).1 h1
      linarith [add_mul (k : ℤ) 1 (-s)]
    · intro h
      have h1 : (k : ℤ) + 1 ≤ (a - b - s - 1) / (-s) := (Int.le_ediv_iff_mul_le (by omega)).2 (by rw [add_mul]; omega)
      omega
  have neg : ∀ k : ℕ, (k : ℤ) * (-s) = -(k * s) := fun k => by ring
  constructor
  · rw [List.pairwise_map]
    refine List.Pairwise.imp_of_mem (fun {i j} hi hj h => ?_) List.pairwise_lt_range
    have h1 : (i : ℤ) * (-s) < j * (-s) := mul_lt_mul_of_pos_right (by exact_mod_cast h) (by omega)
    have h2 := (key j).1 (List.mem_range.1 hj)
    have := neg i
    have := neg j
    show (a + (j : ℤ) * s).toNat < (a + (i : ℤ) * s).toNat
    omega
  · intro x
    simp only [List.mem_map, List.mem_range]
    constructor
    · rintro ⟨k, hk, rfl⟩
      have h2 : 0 ≤ (k : ℤ) * (-s) := mul_nonneg (by positivity) (by omega)
      have h3 := (key k).1 hk
      have := neg k
      rw [Int.toNat_of_nonneg (by omega)]
      exact ⟨by omega, by omega, by omega, ⟨-k, by ring⟩⟩
    · rintro ⟨-, h1, h2, m, hm⟩
      have hm0 : m ≤ 0 := by
        by_contra hc
        have := mul_neg_of_neg_of_pos hs (not_le.1 hc)
        omega
      have e : (((-m).toNat : ℕ) : ℤ) = -m := Int.toNat_of_nonneg (by omega)
      have e2 : -m * s = -(s * m) := by ring
      refine ⟨(-m).toNat, (key _).2 ?_, ?_⟩
      · rw [e, show -m * -s = s * m by ring]; omega
      · rw [e, e2]; omega

end NdAux

namespace NdAux
open Spec

theorem sliceIdx_spec (d : ℕ) (start stop step : Option ℤ) :
    (step.getD 1 = 0 → sliceIdx d start stop step = .error .valueError) ∧
    (step.getD 1 ≠ 0 → ∃ l, sliceIdx d start stop step = .ok l ∧ SliceOf d start stop (step.getD 1) l) := by
  unfold sliceIdx sliceBounds
  generalize step.getD 1 = s
  refine ⟨fun h => by simp [h, bind, Except.bind], fun h => ?_⟩
  simp only [if_neg h, bind, Except.bind, pure, Except.pure]
  refine ⟨_, rfl, fun hs => ?_, fun hs => ?_⟩
  · simp only [if_neg (not_lt.2 hs.le)]
    obtain ⟨h1, h2⟩ := range_up (d := d)
      (a := (Option.map (fun i : ℤ => if i < 0 then max (i + d) 0 else min i d) start).getD 0)
      (b := (Option.map (fun i : ℤ => if i < 0 then max (i + d) 0 else min i d) stop).getD d) hs
      (by cases start <;> simp; split_ifs <;> omega) (by cases stop <;> simp; split_ifs <;> omega)
    refine ⟨h1, fun x => ?_⟩
    rw [h2 x]
    have hstop : x < d → ((x : ℤ) < (Option.map (fun i : ℤ => if i < 0 then max (i + d) 0 else min i d) stop).getD d ↔ ∀ b ∈ stop, (x : ℤ) < fromEnd d b) := by
      intro hx
      cases stop with
      | none => simp [hx]
      | some b => simp [fromEnd]; split_ifs <;> omega
    have hstart : (Option.map (fun i : ℤ => if i < 0 then max (i + d) 0 else min i d) start).getD 0 = max 0 (fromEnd d (start.getD 0)) ∨
        ((d : ℤ) ≤ (Option.map (fun i : ℤ => if i < 0 then max (i + d) 0 else min i d) start).getD 0 ∧ (d : ℤ) ≤ max 0 (fromEnd d (start.getD 0))) := by
      cases start with
      | none => left; simp [fromEnd]
      | some a => simp [fromEnd]; split_ifs <;> omega
    rcases hstart with e | ⟨e1, e2⟩
    · rw [e]
      constructor
      · rintro ⟨a1, a2, a3, a4⟩; exact ⟨a1, a2, (hstop a1).1 a3, a4⟩
      · rintro ⟨a1, a2, a3, a4⟩; exact ⟨a1, a2, (hstop a1).2 a3, a4⟩
    · constructor
      · rintro ⟨a1, a2, -⟩; omega
      · rintro ⟨a1, a2, -⟩; omega
  · simp only [if_pos hs]
    obtain ⟨h1, h2⟩ := range_down (d := d)
      (a := (Option.map (fun i : ℤ => if i < 0 then max (i + d) (-1) else min i (d - 1)) start).getD (d - 1))
      (b := (Option.map (fun i : ℤ => if i < 0 then max (i + d) (-1) else min i (d - 1)) stop).getD (-1)) hs
      (by cases start <;> simp; split_ifs <;> omega) (by cases stop <;> simp; split_ifs <;> omega)
    refine ⟨h1, fun x => ?_⟩
    rw [h2 x]
    have hstop : x < d → ((Option.map (fun i : ℤ => if i < 0 then max (i + d) (-1) else min i (d - 1)) stop).getD (-1) < (x : ℤ) ↔ ∀ b ∈ stop, fromEnd d b < (x : ℤ)) := by
      intro hx
      cases stop with
      | none => simp; omega
      | some b => simp [fromEnd]; split_ifs <;> omega
    have hstart : (Option.map (fun i : ℤ => if i < 0 then max (i + d) (-1) else min i (d - 1)) start).getD (d - 1) = min (d - 1 : ℤ) (fromEnd d (start.getD (d - 1))) ∨
        ((Option.map (fun i : ℤ => if i < 0 then max (i + d) (-1) else min i (d - 1)) start).getD (d - 1) < 0 ∧ min (d - 1 : ℤ) (fromEnd d (start.getD (d - 1))) < 0) := by
      cases start with
      | none => simp [fromEnd]; split_ifs <;> omega
      | some a => simp [fromEnd]; split_ifs <;> omega
    rcases hstart with e | ⟨e1, e2⟩
    · rw [e]
      constructor
      · rintro ⟨a1, a2, a3, a4⟩; exact ⟨a1, a2, (hstop a1).1 a3, a4⟩
      · rintro ⟨a1, a2, a3, a4⟩; exact ⟨a1, a2, (hstop a1).2 a3, a4⟩
    · constructor
      · rintro ⟨a1, a2, -⟩; omega
      · rintro ⟨a1, a2, -⟩; omega

end NdAux

/-- **C110** `p[start:stop:step]`: the components at the indices of the slice, in that order; ValueError for step 0. -/
theorem C110_slice {d : ℕ} (hp : NdWF p n (d :: V)) (start stop step : Option ℤ) :
    (step = some 0 → p.getitem [.slice start stop step] = .error .valueError) ∧
    (step ≠ some 0 → ∃ l q, Spec.SliceOf d start stop (step.getD 1) l ∧ p.getitem [.slice start stop step] = .ok q ∧ NdWF q n (l.length :: V) ∧ q.xk = p.xk ∧
      ∀ j (h : j < l.length) v, ValidIdx V v → q.comp (j :: v) = p.comp (l[j] :: v)) := by
  obtain ⟨g1, g2⟩ := getitem_nd hp (key := [.slice start stop step]) (by simp) (by simp [keyAxes])
  obtain ⟨s1, s2⟩ := sliceIdx_spec d start stop step
  constructor
  · rintro rfl
    exact g1 _ (by simp [select, s1 rfl, bind, Except.bind])
  · intro h
    obtain ⟨l, hl, hs⟩ := s2 (by cases step with | none => simp | some s => simpa using h)
    obtain ⟨q, q1, q2, q3, q4⟩ := g2 (l.length :: V) (fun idx => l.getD (idx.headD 0) 0 :: idx.tail)
      (by simp [select, hl, bind, Except.bind, pure, Except.pure])
    refine ⟨l, q, hs, q1, q2, q3, fun j hj v hv => ?_⟩
    rw [q4 (j :: v) (validIdx_cons_iff.2 ⟨hj, hv⟩)]
    simp only [List.headD_cons, List.tail_cons]
    rw [List.getD_eq_getElem _ _ hj]

/-- **C110** `p[a:b]` for `0 ≤ a ≤ b ≤ d`: the components `a, ..., b - 1`. -/
theorem C110_range {d : ℕ} (hp : NdWF p n (d :: V)) {a b : ℕ} (hb : b ≤ d) (hab : a ≤ b) :
    ∃ q, p.getitem [.slice (some a) (some b) none] = .ok q ∧ NdWF q n ((b - a) :: V) ∧
      ∀ j < b - a, ∀ v, ValidIdx V v → q.comp (j :: v) = p.comp ((a + j) :: v) := by
  obtain ⟨g1, g2⟩ := getitem_nd hp (key := [.slice (some a) (some b) none]) (by simp) (by simp [keyAxes])
  have hl : sliceIdx d (some a) (some b) none = .ok ((List.range (b - a)).map fun k => a + k) := by
    unfold sliceIdx sliceBounds
    simp only [Option.getD_none, one_ne_zero, if_false, bind, Except.bind, pure, Except.pure, Option.map_some, Option.getD_some]
    congr 1
    have h1 : ((if (1 : ℤ) < 0 then ((if (a : ℤ) < 0 then max ((a : ℤ) + d) (if (1 : ℤ) < 0 then -1 else 0) else min (a : ℤ) (if (1 : ℤ) < 0 then (d : ℤ) - 1 else d)) -
        (if (b : ℤ) < 0 then max ((b : ℤ) + d) (if (1 : ℤ) < 0 then -1 else 0) else min (b : ℤ) (if (1 : ℤ) < 0 then (d : ℤ) - 1 else d)) - 1 - 1) / -1
        else ((if (b : ℤ) < 0 then max ((b : ℤ) + d) (if (1 : ℤ) < 0 then -1 else 0) else min (b : ℤ) (if (1 : ℤ) < 0 then (d : ℤ) - 1 else d)) -
        (if (a : ℤ) < 0 then max ((a : ℤ) + d) (if (1 : ℤ) < 0 then -1 else 0) else min (a : ℤ) (if (1 : ℤ) < 0 then (d : ℤ) - 1 else d)) + 1 - 1) / 1).toNat) = b - a := by
      simp only [show ¬ (1 : ℤ) < 0 by omega, if_false, Int.ediv_one]
      rw [if_neg (by omega), if_neg (by omega)]
      omega
    rw [h1]
    refine List.map_congr_left fun k hk => ?_
    rw [if_neg (by omega)]
    simp only [show ¬ (1 : ℤ) < 0 by omega, if_false]
    rw [List.mem_range] at hk
    omega
  obtain ⟨q, q1, q2, -, q4⟩ := g2 ((b - a) :: V) (fun idx => ((List.range (b - a)).map fun k => a + k).getD (idx.headD 0) 0 :: idx.tail)
    (by simp [select, hl, bind, Except.bind, pure, Except.pure])
  refine ⟨q, q1, q2, fun j hj v hv => ?_⟩
  rw [q4 (j :: v) (validIdx_cons_iff.2 ⟨hj, hv⟩)]
  simp only [List.headD_cons, List.tail_cons]
  rw [List.getD_eq_getElem _ _ (by simpa using hj)]
  simp

/-- **C110** `p[::-1]`: the components in reverse order. -/
theorem C110_reverse {d : ℕ} (hp : NdWF p n (d :: V)) :
    ∃ q, p.getitem [.slice none none (some (-1))] = .ok q ∧ NdWF q n (d :: V) ∧
      ∀ j < d, ∀ v, ValidIdx V v → q.comp (j :: v) = p.comp ((d - 1 - j) :: v) := by
  obtain ⟨g1, g2⟩ := getitem_nd hp (key := [.slice none none (some (-1))]) (by simp) (by simp [keyAxes])
  have hl : sliceIdx d none none (some (-1)) = .ok ((List.range d).map fun k => d - 1 - k) := by
    unfold sliceIdx sliceBounds
    simp only [Option.getD_some, Option.map_none, Option.getD_none, bind, Except.bind, pure, Except.pure, show ((-1 : ℤ) = 0) = False by simp, if_false,
      show ((-1 : ℤ) < 0) = True by simp, if_true]
    congr 1
    rw [show (((d : ℤ) - 1 - -1 - -1 - 1) / - -1).toNat = d by
      rw [show (- -1 : ℤ) = 1 by rfl, Int.ediv_one]; omega]
    refine List.map_congr_left fun k hk => ?_
    rw [List.mem_range] at hk
    omega
  obtain ⟨q, q1, q2, -, q4⟩ := g2 (d :: V) (fun idx => ((List.range d).map fun k => d - 1 - k).getD (idx.headD 0) 0 :: idx.tail)
    (by simp [select, hl, bind, Except.bind, pure, Except.pure])
  refine ⟨q, q1, q2, fun j hj v hv => ?_⟩
  rw [q4 (j :: v) (validIdx_cons_iff.2 ⟨hj, hv⟩)]
  simp only [List.headD_cons, List.tail_cons]
  rw [List.getD_eq_getElem _ _ (by simpa using hj)]
  simp

/-- **C110** `len(p)` is the length of the first axis of the components, TypeError without axes; iterating over `p` (`for q in p`) gives `p[0], ..., p[len(p)-1]`;
nothing, not an error, for a scalar function. -/
theorem C110_iterate (hp : NdWF p n V) (fuel : ℕ) (hf : V.headD 0 < fuel) :
    p.len = (match V with | [] => .error .typeError | d :: _ => .ok d) ∧
    ∃ l, p.iterate fuel 0 = .ok l ∧ l.length = V.headD 0 ∧ ∀ i (h : i < l.length), p.getitem [.int i] = .ok l[i] := by
  constructor
  · unfold NdPw.len
    rw [hp.shape, List.drop_one, List.tail_cons, List.dropLast_concat]
    cases V <;> rfl
  · cases V with
    | nil =>
      obtain ⟨m, rfl⟩ : ∃ m, fuel = m + 1 := ⟨fuel - 1, by simp at hf; omega⟩
      refine ⟨[], ?_, rfl, by simp⟩
      unfold NdPw.iterate
      rw [C110_too_many_error hp (by simp [keyAxes])]
    | cons d V =>
      have key : ∀ m i, i ≤ d → d - i < m → ∃ l, p.iterate m i = .ok l ∧ l.length = d - i ∧ ∀ k (h : k < l.length), p.getitem [.int ((i + k : ℕ) : ℤ)] = .ok l[k] := by
        intro m
        induction m with
        | zero => intro i _ h; omega
        | succ m ih =>
          intro i hi hm
          unfold NdPw.iterate
          by_cases hid : i = d
          · rw [(C110_int hp (i : ℤ)).2.2 (by omega)]
            exact ⟨[], rfl, by simp [hid], by simp⟩
          · obtain ⟨q, hq, -⟩ := (C110_int hp (i : ℤ)).1 (by omega) (by omega)
            obtain ⟨l, l1, l2, l3⟩ := ih (i + 1) (by omega) (by omega)
            rw [hq]
            simp only [l1]
            refine ⟨q :: l, rfl, by rw [List.length_cons, l2]; omega, fun k hk => ?_⟩
            cases k with
            | zero => simpa using hq
            | succ k =>
              have := l3 k (by simpa using hk)
              rw [show i + 1 + k = i + (k + 1) by omega] at this
              simpa using this
      obtain ⟨l, l1, l2, l3⟩ := key fuel 0 (Nat.zero_le _) (by simpa using hf)
      exact ⟨l, l1, by simpa using l2, fun i h => by simpa using l3 i h⟩

/-! ### concrete case: the function of Props/PolyNd with two components -/

example : ∃ q, ndEx.getitem [.slice none none (some (-1))] = .ok q ∧ q.comp [0] = ndEx.comp [1] := by
  obtain ⟨q, h1, -, h2⟩ := C110_reverse (V := []) ndEx_WF
  exact ⟨q, h1, h2 0 (by norm_num) [] ⟨rfl, by simp⟩⟩

example : ∃ l q, Spec.SliceOf 2 (some (-5)) none 1 l ∧ ndEx.getitem [.slice (some (-5)) none none] = .ok q := by
  obtain ⟨l, q, h1, h2, -⟩ := (C110_slice (V := []) ndEx_WF (some (-5)) none none).2 (by simp)
  exact ⟨l, q, h1, h2⟩

example : ∃ q, ndEx.getitem [.int (-1), .newaxis] = .ok q := by
  obtain ⟨z, -, h⟩ := C110_getitem ndEx_WF (key := [.int (-1), .newaxis]) (by simp) (by simp [keyAxes]) ⟨[], fun _ => 0⟩
  rcases h with ⟨e, h, -⟩ | ⟨q, -, -, -, h, -⟩
  · have hs : (ndEx.getitem [.int (-1), .newaxis]).toOption.isSome = true := rfl
    rw [h] at hs
    exact absurd hs (by simp [Except.toOption])
  · exact ⟨q, h⟩

example : ∃ l, ndEx.iterate 5 0 = .ok l ∧ l.length = 2 := by
  obtain ⟨-, l, h1, h2, -⟩ := C110_iterate ndEx_WF 5 (by norm_num)
  exact ⟨l, h1, h2⟩

end Npplus
