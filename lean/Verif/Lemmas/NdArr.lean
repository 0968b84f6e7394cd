import Verif.Spec.Basic
import Mathlib.Tactic.Ring
import Mathlib.Tactic.Linarith
import Mathlib.Data.List.TakeDrop

/-!
# Broadcasting lemmas
-/

set_option linter.unusedSectionVars false

namespace Npplus
open Spec

theorem bcastRev_some : ∀ {s t r : List ℕ}, bcastRev s t = some r →
    r.length = max s.length t.length ∧ ∀ k, (s.getD k 1 = r.getD k 1 ∨ s.getD k 1 = 1) ∧
      (t.getD k 1 = r.getD k 1 ∨ t.getD k 1 = 1) ∧ (s.getD k 1 = r.getD k 1 ∨ t.getD k 1 = r.getD k 1)
  | [], t, r, h => by
    have : t = r := by simpa [bcastRev] using h
    subst this
    exact ⟨by simp, fun k => by simp⟩
  | a :: s, [], r, h => by
    have : a :: s = r := by simpa [bcastRev] using h
    subst this
    exact ⟨by simp, fun k => by simp⟩
  | a :: s, b :: t, r, h => by
    rw [bcastRev] at h
    cases hc : bcastRev s t with
    | none => rw [hc] at h; cases h
    | some r' =>
      rw [hc] at h
      obtain ⟨h1, h2⟩ := bcastRev_some hc
      simp only at h
      have hr : ∃ c, r = c :: r' ∧ (a = c ∨ a = 1) ∧ (b = c ∨ b = 1) ∧ (a = c ∨ b = c) := by
        split at h
        · cases h; rename_i hab; exact ⟨a, rfl, by simp, by simp [hab], by simp⟩
        · split at h
          · cases h; exact ⟨b, rfl, by simp_all, by simp, by simp⟩
          · split at h
            · cases h; exact ⟨a, rfl, by simp, by simp_all, by simp⟩
            · cases h
      obtain ⟨c, rfl, hc⟩ := hr
      refine ⟨by simp [h1], fun k => ?_⟩
      cases k with
      | zero => simpa using hc
      | succ k => simpa using h2 k

theorem bcastRev_none : ∀ {s t : List ℕ}, bcastRev s t = none →
    ∃ k, s.getD k 1 ≠ t.getD k 1 ∧ s.getD k 1 ≠ 1 ∧ t.getD k 1 ≠ 1
  | [], t, h => by simp [bcastRev] at h
  | a :: s, [], h => by simp [bcastRev] at h
  | a :: s, b :: t, h => by
    rw [bcastRev] at h
    cases hc : bcastRev s t with
    | none =>
      obtain ⟨k, hk⟩ := bcastRev_none hc
      exact ⟨k + 1, by simpa using hk⟩
    | some r' =>
      rw [hc] at h
      simp only at h
      split at h
      · cases h
      · split at h
        · cases h
        · split at h
          · cases h
          · exact ⟨0, by simp_all⟩

theorem bcastShape_ok {s t r : List ℕ} (h : bcastShape s t = .ok r) : Common [s, t] r := by
  unfold bcastShape at h
  cases hc : bcastRev s.reverse t.reverse with
  | none => rw [hc] at h; cases h
  | some q =>
    rw [hc] at h; cases h
    obtain ⟨h1, h2⟩ := bcastRev_some hc
    simp only [List.length_reverse] at h1
    refine ⟨?_, ?_, ?_, ?_⟩
    · simp [h1]
    · rcases le_total s.length t.length with h | h
      · exact ⟨t, by simp, by simp [h1, h]⟩
      · exact ⟨s, by simp, by simp [h1, h]⟩
    · intro u hu k
      simp only [List.mem_cons, List.not_mem_nil, or_false] at hu
      unfold rdim; rw [List.reverse_reverse]
      rcases hu with rfl | rfl
      · exact (h2 k).1
      · exact (h2 k).2.1
    · intro k
      unfold rdim; rw [List.reverse_reverse]
      rcases (h2 k).2.2 with h | h
      · exact ⟨s, by simp, h⟩
      · exact ⟨t, by simp, h⟩

theorem bcastShape_err {s t : List ℕ} {e : PyErr} (h : bcastShape s t = .error e) :
    e = .valueError ∧ ∃ k, rdim s k ≠ rdim t k ∧ rdim s k ≠ 1 ∧ rdim t k ≠ 1 := by
  unfold bcastShape at h
  cases hc : bcastRev s.reverse t.reverse with
  | none => rw [hc] at h; cases h; exact ⟨rfl, bcastRev_none hc⟩
  | some q => rw [hc] at h; cases h

theorem rdim_of_ge {s : List ℕ} {k : ℕ} (h : s.length ≤ k) : rdim s k = 1 := by
  unfold rdim; rw [List.getD_eq_default _ _ (by simpa using h)]

theorem rdim_of_lt {s : List ℕ} {k : ℕ} (h : k < s.length) : rdim s k = s.getD (s.length - 1 - k) 0 := by
  unfold rdim
  rw [List.getD_eq_getElem _ _ (by simpa using h), List.getElem_reverse, List.getD_eq_getElem _ _ (by omega)]

theorem ext_rdim {s t : List ℕ} (hl : s.length = t.length) (h : ∀ k, rdim s k = rdim t k) : s = t := by
  refine List.ext_getElem hl fun i h1 h2 => ?_
  have := h (s.length - 1 - i)
  rw [rdim_of_lt (by omega), rdim_of_lt (by omega), List.getD_eq_getElem _ _ (by omega),
    List.getD_eq_getElem _ _ (by omega)] at this
  have e : s.length - 1 - (s.length - 1 - i) = i := by omega
  have e' : t.length - 1 - (s.length - 1 - i) = i := by omega
  simpa only [e, e'] using this

/-- The common shape is unique. -/
theorem Spec.Common.unique {ss : List (List ℕ)} {r r' : List ℕ} (h : Common ss r) (h' : Common ss r') : r = r' := by
  refine ext_rdim ?_ fun k => ?_
  · obtain ⟨s, hs, e⟩ := h.maxlen
    obtain ⟨s', hs', e'⟩ := h'.maxlen
    have := h.len _ hs'
    have := h'.len _ hs
    omega
  · obtain ⟨s, hs, e⟩ := h.hit k
    obtain ⟨s', hs', e'⟩ := h'.hit k
    rcases h.fits _ hs' k with a | a
    · exact a.symm.trans e'
    · rcases h'.fits _ hs k with b | b
      · exact e.symm.trans b
      · rw [← e, ← e', a, b]

theorem Spec.Common.perm {ss ss' : List (List ℕ)} {r : List ℕ} (h : Common ss r) (hp : ss.Perm ss') : Common ss' r := by
  refine ⟨fun s hs => h.len s (hp.mem_iff.mpr hs), ?_, fun s hs => h.fits s (hp.mem_iff.mpr hs), fun k => ?_⟩
  · obtain ⟨s, hs, e⟩ := h.maxlen; exact ⟨s, hp.mem_iff.mp hs, e⟩
  · obtain ⟨s, hs, e⟩ := h.hit k; exact ⟨s, hp.mem_iff.mp hs, e⟩

/-- Broadcasting the first two and then the rest. -/
theorem Spec.Common.assoc {a b r1 r : List ℕ} {l : List (List ℕ)} (h1 : Common [a, b] r1) (h : Common (r1 :: l) r) :
    Common (a :: b :: l) r := by
  have fa := h1.fits a (by simp)
  have fb := h1.fits b (by simp)
  have fr := h.fits r1 (by simp)
  refine ⟨?_, ?_, ?_, ?_⟩
  · intro s hs
    simp only [List.mem_cons] at hs
    rcases hs with rfl | rfl | hs
    · exact (h1.len _ (by simp)).trans (h.len _ (by simp))
    · exact (h1.len _ (by simp)).trans (h.len _ (by simp))
    · exact h.len _ (by simp [hs])
  · obtain ⟨s, hs, e⟩ := h.maxlen
    rcases List.mem_cons.mp hs with rfl | hs
    · obtain ⟨s', hs', e'⟩ := h1.maxlen
      exact ⟨s', by simp only [List.mem_cons, List.not_mem_nil, or_false] at hs'; rcases hs' with rfl | rfl <;> simp, e'.trans e⟩
    · exact ⟨s, by simp [hs], e⟩
  · intro s hs k
    simp only [List.mem_cons] at hs
    have := fr k
    rcases hs with rfl | rfl | hs
    · have := fa k; omega
    · have := fb k; omega
    · exact h.fits s (by simp [hs]) k
  · intro k
    obtain ⟨s, hs, e⟩ := h.hit k
    rcases List.mem_cons.mp hs with rfl | hs
    · obtain ⟨s', hs', e'⟩ := h1.hit k
      exact ⟨s', by simp only [List.mem_cons, List.not_mem_nil, or_false] at hs'; rcases hs' with rfl | rfl <;> simp, e'.trans e⟩
    · exact ⟨s, by simp [hs], e⟩

theorem Spec.Common.split {a b r : List ℕ} {l : List (List ℕ)} (h : Common (a :: b :: l) r) :
    ∃ r1, bcastShape a b = .ok r1 ∧ Common [a, b] r1 ∧ Common (r1 :: l) r := by
  cases hc : bcastShape a b with
  | error e =>
    obtain ⟨-, k, h1, h2, h3⟩ := bcastShape_err hc
    have := h.fits a (by simp) k
    have := h.fits b (by simp) k
    omega
  | ok r1 =>
    have h1 := bcastShape_ok hc
    have fa := h.fits a (by simp)
    have fb := h.fits b (by simp)
    have hr1 : ∀ k, rdim r1 k = rdim a k ∨ rdim r1 k = rdim b k := by
      intro k
      obtain ⟨s, hs, e⟩ := h1.hit k
      simp only [List.mem_cons, List.not_mem_nil, or_false] at hs
      rcases hs with rfl | rfl
      · exact .inl e.symm
      · exact .inr e.symm
    have fa1 := h1.fits a (by simp)
    have fb1 := h1.fits b (by simp)
    refine ⟨r1, rfl, h1, ?_, ?_, ?_, ?_⟩
    · intro s hs
      rcases List.mem_cons.mp hs with rfl | hs
      · obtain ⟨s', hs', e'⟩ := h1.maxlen
        rw [← e']
        refine h.len _ ?_
        simp only [List.mem_cons, List.not_mem_nil, or_false] at hs'; rcases hs' with rfl | rfl <;> simp
      · exact h.len _ (by simp [hs])
    · obtain ⟨s, hs, e⟩ := h.maxlen
      simp only [List.mem_cons] at hs
      have l1 := h1.len a (by simp)
      have l2 := h1.len b (by simp)
      have l3 : r1.length ≤ r.length := by
        obtain ⟨s', hs', e'⟩ := h1.maxlen
        rw [← e']
        refine h.len _ ?_
        simp only [List.mem_cons, List.not_mem_nil, or_false] at hs'; rcases hs' with rfl | rfl <;> simp
      rcases hs with rfl | rfl | hs
      · exact ⟨r1, by simp, by omega⟩
      · exact ⟨r1, by simp, by omega⟩
      · exact ⟨s, by simp [hs], e⟩
    · intro s hs k
      rcases List.mem_cons.mp hs with rfl | hs
      · have := fa k; have := fb k; have := hr1 k; omega
      · exact h.fits s (by simp [hs]) k
    · intro k
      obtain ⟨s, hs, e⟩ := h.hit k
      simp only [List.mem_cons] at hs
      have := fa k; have := fb k; have := hr1 k; have := fa1 k; have := fb1 k
      rcases hs with rfl | rfl | hs
      · exact ⟨r1, by simp, by omega⟩
      · exact ⟨r1, by simp, by omega⟩
      · exact ⟨s, by simp [hs], e⟩

theorem common_single (s : List ℕ) : Common [s] s :=
  ⟨by simp, ⟨s, by simp, rfl⟩, by simp, fun k => ⟨s, by simp, rfl⟩⟩

/-! ### indices -/

theorem bcIdx_length {s idx : List ℕ} (h : s.length ≤ idx.length) : (bcIdx s idx).length = s.length := by
  unfold bcIdx; simp; omega

theorem bcIdx_getD {s idx : List ℕ} (h : s.length ≤ idx.length) {j : ℕ} (hj : j < s.length) :
    (bcIdx s idx).getD j 0 = if s.getD j 0 = 1 then 0 else idx.getD (idx.length - s.length + j) 0 := by
  rw [List.getD_eq_getElem _ _ (by rw [bcIdx_length h]; exact hj), List.getD_eq_getElem _ _ hj,
    List.getD_eq_getElem _ _ (by omega)]
  unfold bcIdx
  simp [List.getElem_zipWith, List.getElem_drop]

theorem ext_getD {s t : List ℕ} (hl : s.length = t.length) (h : ∀ k < s.length, s.getD k 0 = t.getD k 0) : s = t := by
  refine List.ext_getElem hl fun i h1 h2 => ?_
  have := h i h1
  rwa [List.getD_eq_getElem _ _ h1, List.getD_eq_getElem _ _ h2] at this

/-- Broadcasting to the own shape changes nothing. -/
theorem bcIdx_self {s idx : List ℕ} (h : ValidIdx s idx) : bcIdx s idx = idx := by
  obtain ⟨h1, h2⟩ := h
  refine ext_getD (by rw [bcIdx_length (by omega)]; omega) fun k hk => ?_
  rw [bcIdx_length (by omega)] at hk
  rw [bcIdx_getD (by omega) hk]
  have := h2 k hk
  split
  · omega
  · congr 1; omega

/-- Broadcasting in two steps. -/
theorem bcIdx_comp {s r idx : List ℕ} (h1 : s.length ≤ r.length) (h2 : r.length ≤ idx.length)
    (hf : ∀ k, rdim s k = rdim r k ∨ rdim s k = 1) : bcIdx s (bcIdx r idx) = bcIdx s idx := by
  have hl := bcIdx_length h2
  refine ext_getD (by rw [bcIdx_length (by omega), bcIdx_length (by omega)]) fun k hk => ?_
  rw [bcIdx_length (by omega)] at hk
  rw [bcIdx_getD (by omega) hk, bcIdx_getD (by omega) hk]
  split
  · rfl
  next hne =>
  rw [hl, bcIdx_getD h2 (by omega)]
  have := hf (s.length - 1 - k)
  rw [rdim_of_lt (by omega), rdim_of_lt (by omega)] at this
  have e : s.length - 1 - (s.length - 1 - k) = k := by omega
  have e' : r.length - 1 - (s.length - 1 - k) = r.length - s.length + k := by omega
  rw [e, e'] at this
  rw [if_neg (by omega)]
  congr 1; omega

theorem bcIdx_valid {s r idx : List ℕ} (h1 : s.length ≤ r.length) (hf : ∀ k, rdim s k = rdim r k ∨ rdim s k = 1)
    (h : ValidIdx r idx) : ValidIdx s (bcIdx s idx) := by
  obtain ⟨hl, hv⟩ := h
  refine ⟨bcIdx_length (by omega), fun k hk => ?_⟩
  rw [bcIdx_getD (by omega) hk]
  split
  · omega
  next hne =>
  have := hf (s.length - 1 - k)
  rw [rdim_of_lt (by omega), rdim_of_lt (by omega)] at this
  have e : s.length - 1 - (s.length - 1 - k) = k := by omega
  have e' : r.length - 1 - (s.length - 1 - k) = r.length - s.length + k := by omega
  rw [e, e'] at this
  have h3 := hv (r.length - s.length + k) (by omega)
  rw [hl]; omega

theorem common_valid {ss : List (List ℕ)} {r s idx : List ℕ} (h : Common ss r) (hs : s ∈ ss) (hv : ValidIdx r idx) :
    ValidIdx s (bcIdx s idx) := bcIdx_valid (h.len s hs) (h.fits s hs) hv

theorem Spec.bget_self {α : Type} {a : NdArr α} {idx : List ℕ} (h : ValidIdx a.shape idx) : bget a idx = a.get idx := by
  unfold bget; rw [bcIdx_self h]

/-! ### elementwise operations -/

namespace NdArr
variable {α β γ : Type}

theorem zip_ok {f : α → β → γ} {a : NdArr α} {b : NdArr β} {r : NdArr γ} (h : a.zip f b = .ok r) :
    Common [a.shape, b.shape] r.shape ∧ ∀ idx, r.get idx = f (bget a idx) (bget b idx) := by
  unfold zip at h
  cases hc : bcastShape a.shape b.shape with
  | error e => rw [hc] at h; cases h
  | ok sh =>
    rw [hc] at h; cases h
    exact ⟨bcastShape_ok hc, fun _ => rfl⟩

theorem zip_ok_of {f : α → β → γ} {a : NdArr α} {b : NdArr β} {sh : List ℕ} (h : Common [a.shape, b.shape] sh) :
    a.zip f b = .ok ⟨sh, fun idx => f (bget a idx) (bget b idx)⟩ := by
  obtain ⟨r1, h1, h2, h3⟩ := h.split
  have : r1 = sh := (common_single r1).unique h3
  unfold zip
  rw [h1, this]; rfl

theorem zip_err {f : α → β → γ} {a : NdArr α} {b : NdArr β} (h : ¬ ∃ sh, Common [a.shape, b.shape] sh) :
    a.zip f b = .error .valueError := by
  cases hc : bcastShape a.shape b.shape with
  | error e =>
    unfold zip
    rw [hc, (bcastShape_err hc).1]; rfl
  | ok sh => exact absurd ⟨sh, bcastShape_ok hc⟩ h

/-- Reading through an intermediate array. -/
theorem bget_comp {a : NdArr α} {r idx : List ℕ} (h1 : a.shape.length ≤ r.length) (h2 : r.length ≤ idx.length)
    (hf : ∀ k, rdim a.shape k = rdim r k ∨ rdim a.shape k = 1) : bget a (bcIdx r idx) = bget a idx := by
  unfold bget; rw [bcIdx_comp h1 h2 hf]

end NdArr
end Npplus

namespace Npplus
open Spec

/-- Shapes that conform pairwise have a common shape. -/
theorem exists_common {ss : List (List ℕ)} (hne : ss ≠ [])
    (h : ∀ s ∈ ss, ∀ t ∈ ss, ∀ k, rdim s k = rdim t k ∨ rdim s k = 1 ∨ rdim t k = 1) : ∃ r, Common ss r := by
  have hv : ∀ k, ∃ v, (∀ s ∈ ss, rdim s k = v ∨ rdim s k = 1) ∧ ∃ s ∈ ss, rdim s k = v := by
    intro k
    by_cases hc : ∃ s ∈ ss, rdim s k ≠ 1
    · obtain ⟨s, hs, h1⟩ := hc
      exact ⟨rdim s k, fun t ht => by have := h s hs t ht k; omega, s, hs, rfl⟩
    · push Not at hc
      obtain ⟨s, l, rfl⟩ := List.exists_cons_of_ne_nil hne
      exact ⟨1, fun t ht => .inl (hc t ht), s, by simp, hc s (by simp)⟩
  choose v hv1 hv2 using hv
  obtain ⟨L, hL1, hL2⟩ : ∃ L, (∀ s ∈ ss, s.length ≤ L) ∧ ∃ s ∈ ss, s.length = L := by
    clear hv1 hv2 h v
    induction ss with
    | nil => exact absurd rfl hne
    | cons a l ih =>
      by_cases hl : l = []
      · subst hl; exact ⟨a.length, by simp, a, by simp, rfl⟩
      · obtain ⟨L, h1, s, hs, h2⟩ := ih hl
        rcases le_total L a.length with hle | hle
        · exact ⟨a.length, fun t ht => by
            rcases List.mem_cons.mp ht with rfl | ht
            · exact le_rfl
            · exact (h1 t ht).trans hle, a, by simp, rfl⟩
        · exact ⟨L, fun t ht => by
            rcases List.mem_cons.mp ht with rfl | ht
            · exact hle
            · exact h1 t ht, s, by simp [hs], h2⟩
  have hr : ∀ k, rdim ((List.range L).map v).reverse k = v k := by
    intro k
    unfold rdim
    rw [List.reverse_reverse]
    rcases Nat.lt_or_ge k L with hk | hk
    · rw [List.getD_eq_getElem _ _ (by simpa using hk)]; simp
    · rw [List.getD_eq_default _ _ (by simpa using hk)]
      obtain ⟨s, hs, e⟩ := hv2 k
      rw [← e, rdim_of_ge ((hL1 s hs).trans hk)]
  refine ⟨((List.range L).map v).reverse, ?_, ?_, ?_, ?_⟩
  · simpa using hL1
  · obtain ⟨s, hs, e⟩ := hL2; exact ⟨s, hs, by simp [e]⟩
  · intro s hs k; rw [hr]; exact hv1 k s hs
  · intro k; obtain ⟨s, hs, e⟩ := hv2 k; exact ⟨s, hs, by rw [hr, e]⟩

theorem Spec.Common.sub {ss tt : List (List ℕ)} {r : List ℕ} (h : Common ss r) (hne : tt ≠ []) (hs : ∀ t ∈ tt, t ∈ ss) :
    ∃ r', Common tt r' :=
  exists_common hne fun s hs' t ht k => by
    have := h.fits s (hs s hs') k; have := h.fits t (hs t ht) k; omega

/-- A fold of an elementwise operation. -/
theorem foldlM_zip {α : Type} {f : α → α → α} {args : List (NdArr α)} : ∀ {a r : NdArr α},
    args.foldlM (fun a b => a.zip f b) a = .ok r →
    Common (a.shape :: args.map (·.shape)) r.shape ∧
      ∀ idx, ValidIdx r.shape idx → r.get idx = (args.map (bget · idx)).foldl f (bget a idx) := by
  induction args with
  | nil =>
    intro a r h
    have : a = r := by simpa [List.foldlM, pure, Except.pure] using h
    subst this
    exact ⟨common_single _, fun idx hv => (bget_self hv).symm⟩
  | cons b l ih =>
    intro a r h
    rw [List.foldlM_cons] at h
    cases hc : a.zip f b with
    | error e => rw [hc] at h; cases h
    | ok a1 =>
      rw [hc] at h
      obtain ⟨h1, h2⟩ := NdArr.zip_ok hc
      obtain ⟨h3, h4⟩ := ih (a := a1) (r := r) h
      refine ⟨h1.assoc h3, fun idx hv => ?_⟩
      rw [h4 idx hv, List.map_cons, List.foldl_cons]
      congr 1
      have hl : a1.shape.length ≤ idx.length := by rw [hv.1]; exact h3.len _ (by simp)
      show a1.get _ = _
      rw [h2, NdArr.bget_comp (h1.len _ (by simp)) hl (h1.fits _ (by simp)), NdArr.bget_comp (h1.len _ (by simp)) hl (h1.fits _ (by simp))]

theorem foldlM_zip_ok {α : Type} {f : α → α → α} {args : List (NdArr α)} : ∀ {a : NdArr α} {sh : List ℕ},
    Common (a.shape :: args.map (·.shape)) sh → ∃ r, args.foldlM (fun a b => a.zip f b) a = .ok r := by
  induction args with
  | nil => intro a sh _; exact ⟨a, rfl⟩
  | cons b l ih =>
    intro a sh h
    obtain ⟨r1, -, h2, h3⟩ := h.split
    rw [List.foldlM_cons, NdArr.zip_ok_of h2]
    exact ih (a := ⟨r1, _⟩) h3

theorem foldlM_zip_err {α : Type} {f : α → α → α} {args : List (NdArr α)} : ∀ {a : NdArr α} {e : PyErr},
    args.foldlM (fun a b => a.zip f b) a = .error e → e = .valueError := by
  induction args with
  | nil => intro a e h; cases h
  | cons b l ih =>
    intro a e h
    rw [List.foldlM_cons] at h
    cases hc : a.zip f b with
    | error e' =>
      rw [hc] at h; cases h
      unfold NdArr.zip at hc
      cases hb : bcastShape a.shape b.shape with
      | error e'' => rw [hb] at hc; cases hc; exact (bcastShape_err hb).1
      | ok sh => rw [hb] at hc; cases hc
    | ok a1 => rw [hc] at h; exact ih h

end Npplus
