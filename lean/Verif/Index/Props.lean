import Verif.Index.Lemmas
import Mathlib.Tactic.ClearExcept

/-!
# Indices and index sets: properties C05, C10, C11, C12, C13

Two indices are "the same" when `==` holds, i.e. same id, same prime level, same tags
(`Index.key`).  `keys is` lists the identities of an index set in order.
-/

namespace Verif.Index

open Verif.TagSet (Tag TagSet)

/-! ## C10 -/

theorem sectorLoop_spec : ∀ (ms : List Nat) (s : Nat) (v : Int), 1 ≤ v →
    (v ≤ ms.sum → ∃ k p, Index.sectorLoop ms s v = .ok (s + k, p) ∧ ∃ hk : k < ms.length,
      1 ≤ p ∧ p ≤ ms[k] ∧ v = ((ms.take k).sum : Nat) + p) ∧
    (v > ms.sum → Index.sectorLoop ms s v = .ub) := by
  intro ms
  induction ms with
  | nil => intro s v h; simp [Index.sectorLoop]; omega
  | cons m ms ih =>
    intro s v h
    unfold Index.sectorLoop
    by_cases hv : v > m
    · obtain ⟨h1, h2⟩ := ih (s + 1) (v - m) (by omega)
      rw [if_pos hv, List.sum_cons]
      constructor
      · intro hle
        obtain ⟨k, p, e, hk, p1, p2, p3⟩ := h1 (by push_cast at hle ⊢; omega)
        refine ⟨k + 1, p, ?_, by simpa using hk, p1, by simpa using p2, ?_⟩
        · rw [e]; congr 2; omega
        · rw [List.take_succ_cons, List.sum_cons]; push_cast; omega
      · intro hgt; exact h2 (by push_cast at hgt ⊢; omega)
    · rw [if_neg hv, List.sum_cons]
      constructor
      · intro _
        exact ⟨0, v, by simp, by simp, h, by simpa using hv, by simp⟩
      · intro hgt; push_cast at hgt; omega

/-- **C10.** For `1 ≤ v ≤ dim` the lookup returns a sector `k` (1-based) and a position `p` inside it
with `1 ≤ p ≤ size k`, such that `v` is `p` plus the sizes of the earlier sectors, and the reported
QN is that of sector `k`. -/
theorem C10_sector (i : Index) (v : Int) (h1 : 1 ≤ v) (h2 : v ≤ ((i.qns.map (·.2)).sum : Nat)) :
    ∃ k p, i.sectorInfo v = .ok (k + 1, p) ∧ ∃ hk : k < i.qns.length,
      1 ≤ p ∧ p ≤ i.qns[k].2 ∧ v = (((i.qns.map (·.2)).take k).sum : Nat) + p ∧
      i.valQN v = .ok i.qns[k].1 := by
  obtain ⟨k, p, e, hk, p1, p2, p3⟩ := (sectorLoop_spec (i.qns.map (·.2)) 1 v h1).1 h2
  have hk' : k < i.qns.length := by simpa using hk
  have e' : i.sectorInfo v = .ok (k + 1, p) := by
    unfold Index.sectorInfo; rw [e, Nat.add_comm]
  refine ⟨k, p, e', hk', p1, by simpa using p2, p3, ?_⟩
  unfold Index.valQN
  rw [e']
  simp [hk']

/-- **C10.** The sector and position are unique: the pair determines, and is determined by, `v`. -/
theorem C10_sector_unique (ms : List Nat) (k k' : Nat) (p p' : Int) (hk : k < ms.length)
    (hk' : k' < ms.length) (h1 : 1 ≤ p) (h2 : p ≤ ms[k]) (h1' : 1 ≤ p') (h2' : p' ≤ ms[k'])
    (e : (((ms.take k).sum : Nat) : Int) + p = ((ms.take k').sum : Nat) + p') : k = k' ∧ p = p' := by
  have mono : ∀ (a b : Nat) (hab : a < b) (hb : b ≤ ms.length),
      (ms.take a).sum + ms[a]'(by omega) ≤ (ms.take b).sum := by
    intro a b hab hb
    have : (ms.take (a + 1)).sum = (ms.take a).sum + ms[a]'(by omega) := by
      rw [List.take_succ_eq_append_getElem (by omega), List.sum_append]; simp
    rw [← this]
    have hsub : ms.take (a + 1) <+: ms.take b := List.take_prefix_take_left (by omega)
    obtain ⟨t, ht⟩ := hsub
    rw [← ht, List.sum_append]; omega
  rcases Nat.lt_trichotomy k k' with h | h | h
  · have := mono k k' h (by omega); omega
  · subst h; exact ⟨rfl, by omega⟩
  · have := mono k' k h (by omega)
    have h3 : ms[k']'(by omega) = ms[k'] := rfl
    omega

/-- **C10.** Values above the total dimension read past the sector table. -/
theorem C10_out_of_range (i : Index) (v : Int) (h1 : 1 ≤ v)
    (h2 : v > ((i.qns.map (·.2)).sum : Nat)) : i.sectorInfo v = .ub :=
  (sectorLoop_spec _ 1 v h1).2 h2

/-- Sizes 2,0,3: value 4 is the second state of the third sector. -/
example : Index.sectorLoop [2, 0, 3] 1 4 = .ok (3, 2) := by decide

namespace IndexSet

/-! ## C11 -/

/-- **C11.** `commonInds`: exactly the indices in both, in the order of the first. -/
theorem C11_common (a b : IndexSet) :
    (∀ k, k ∈ keys (commonInds a b) ↔ k ∈ keys a ∧ k ∈ keys b) ∧
    (commonInds a b).Sublist a ∧ ((keys a).Nodup → (keys (commonInds a b)).Nodup) := by
  refine ⟨fun k => by rw [keys_common]; simp, List.filter_sublist, fun h => ?_⟩
  rw [keys_common]; exact h.filter _

/-- **C11.** `uniqueInds`: exactly the indices of the first not in the second, in order; also with a
list of index sets. -/
theorem C11_unique (a b : IndexSet) (l : List IndexSet) :
    (∀ k, k ∈ keys (uniqueInds a b) ↔ k ∈ keys a ∧ k ∉ keys b) ∧
    (uniqueInds a b).Sublist a ∧ ((keys a).Nodup → (keys (uniqueInds a b)).Nodup) ∧
    (∀ k, k ∈ keys (uniqueIndsL a l) ↔ k ∈ keys a ∧ ∀ c ∈ l, k ∉ keys c) := by
  refine ⟨fun k => by rw [keys_unique]; simp, List.filter_sublist, fun h => ?_, fun k => ?_⟩
  · rw [keys_unique]; exact h.filter _
  · unfold uniqueIndsL
    rw [keys_unique]
    simp only [List.mem_filter, concatInds, keys, List.map_flatten, List.mem_flatten, List.mem_map]
    simp

/-- **C11.** `unionInds`: exactly the indices in either; the first set's order then the new ones. -/
theorem C11_union (a b : IndexSet) :
    (∀ k, k ∈ keys (unionInds a b) ↔ k ∈ keys a ∨ k ∈ keys b) ∧
    (∃ c, unionInds a b = a ++ c ∧ c.Sublist b) ∧
    ((keys a).Nodup → (keys b).Nodup → (keys (unionInds a b)).Nodup) := by
  refine ⟨fun k => ?_, ⟨_, rfl, List.filter_sublist⟩, fun ha hb => ?_⟩
  · rw [keys_union]; simp only [List.mem_append, List.mem_filter]
    by_cases h : k ∈ keys a <;> simp [h]
  · rw [keys_union, List.nodup_append]
    refine ⟨ha, hb.filter _, ?_⟩
    intro x hx y hy e
    subst e
    simp at hy; exact hy.2 hx

/-- **C11.** `noncommonInds`: the symmetric difference. -/
theorem C11_noncommon (a b : IndexSet) :
    (∀ k, k ∈ keys (noncommonInds a b) ↔ (k ∈ keys a ∧ k ∉ keys b) ∨ (k ∈ keys b ∧ k ∉ keys a)) ∧
    ((keys a).Nodup → (keys b).Nodup → (keys (noncommonInds a b)).Nodup) := by
  unfold noncommonInds
  refine ⟨fun k => ?_, fun ha hb => ?_⟩
  · rw [(C11_union _ _).1, (C11_unique a b []).1, (C11_unique b a []).1]
  · exact (C11_union _ _).2.2 ((C11_unique a b []).2.2.1 ha) ((C11_unique b a []).2.2.1 hb)

/-- **C11.** `unionInds(Index,IndexSet)`. -/
theorem C11_cons (i : Index) (b : IndexSet) :
    (∀ k, k ∈ keys (consInds i b) ↔ k = i.key ∨ k ∈ keys b) ∧
    ((keys b).Nodup → (keys (consInds i b)).Nodup) := by
  have e : keys (consInds i b) = i.key :: (keys b).filter (fun k => !decide (k = i.key)) := by
    unfold consInds keys
    rw [List.map_cons, List.filter_map]
    congr 2
    apply List.filter_congr
    intro j _
    simp only [Function.comp]
    congr 1
    rw [Bool.eq_iff_iff, Index.eq_iff]; simp
  refine ⟨fun k => ?_, fun h => ?_⟩
  · rw [e]; simp only [List.mem_cons, List.mem_filter]
    by_cases hk : k = i.key <;> simp [hk]
  · rw [e]; simp [h.filter]

/-- **C11.** `hasSameInds` is equality of sets (for sets without repetition); `equals` is equality
in the same order; `hasInds` is inclusion. -/
theorem C11_same (a b : IndexSet) (ha : (keys a).Nodup) (hb : (keys b).Nodup) :
    (hasSameInds a b = true ↔ ∀ k, k ∈ keys a ↔ k ∈ keys b) ∧
    (equals a b = true ↔ keys a = keys b) ∧
    (hasInds a b = true ↔ ∀ k, k ∈ keys b → k ∈ keys a) := by
  have hincl : hasInds a b = true ↔ ∀ k, k ∈ keys b → k ∈ keys a := by
    unfold hasInds
    rw [List.all_eq_true]
    simp only [hasIndex_iff]
    constructor
    · intro h k hk; obtain ⟨i, hi, rfl⟩ := List.mem_map.1 hk; exact h i hi
    · intro h i hi; exact h _ (List.mem_map.2 ⟨i, hi, rfl⟩)
  refine ⟨?_, ?_, hincl⟩
  · unfold hasSameInds
    rw [Bool.and_eq_true, hincl, beq_iff_eq]
    have la : (keys a).length = a.length := by simp [keys]
    have lb : (keys b).length = b.length := by simp [keys]
    constructor
    · rintro ⟨hl, h⟩
      have hs : (keys b).Subperm (keys a) := List.subperm_of_subset hb h
      have hp : (keys b).Perm (keys a) := hs.perm_of_length_le (by omega)
      intro k; exact hp.symm.mem_iff
    · intro h
      have hp : (keys a).Perm (keys b) := (List.perm_ext_iff_of_nodup ha hb).2 h
      exact ⟨by rw [← la, ← lb]; exact hp.length_eq, fun k hk => (h k).2 hk⟩
  · unfold equals
    rw [Bool.and_eq_true, beq_iff_eq]
    clear ha hb hincl
    induction a generalizing b with
    | nil => cases b <;> simp [keys]
    | cons x a ih =>
      cases b with
      | nil => simp [keys]
      | cons y b =>
        have := ih b
        simp only [List.length_cons, Nat.add_right_cancel_iff, List.zip_cons_cons, List.all_cons,
          Bool.and_eq_true, Index.eq_iff, keys, List.map_cons, List.cons.injEq] at this ⊢
        rw [← this]
        constructor
        · rintro ⟨h1, h2, h3⟩; exact ⟨h2, h1, h3⟩
        · rintro ⟨h2, h1, h3⟩; exact ⟨h1, h2, h3⟩

/-! ## C12 -/

/-- **C12.** Labels: two positions get the same label exactly when their indices are the same;
negative labels are exactly the shared indices; labels within one tensor are distinct. -/
theorem C12_labels (L R : IndexSet) (hL : (keys L).Nodup) (hR : (keys R).Nodup) :
    let A := (computeLabels L R).1
    let B := (computeLabels L R).2.1
    A.length = L.length ∧ B.length = R.length ∧
    (∀ i (hi : i < L.length), ∃ a, A[i]? = some a ∧ a ≠ 0 ∧ (a < 0 ↔ L[i].key ∈ keys R)) ∧
    (∀ j (hj : j < R.length), ∃ b, B[j]? = some b ∧ b ≠ 0 ∧ (b < 0 ↔ R[j].key ∈ keys L)) ∧
    (∀ i (hi : i < L.length) j (hj : j < R.length), A[i]? = B[j]? ↔ L[i].key = R[j].key) ∧
    A.Nodup ∧ B.Nodup := by
  obtain ⟨_, c2, c3, c4, c5⟩ := contLoop_spec R L (List.replicate R.length 0) 0 hL (by simp)
  obtain ⟨cl1, cl2⟩ := contLoop_length R L (List.replicate R.length 0) 0
  unfold computeLabels
  generalize hc : contLoop R L (List.replicate R.length 0) 0 = c at *
  obtain ⟨A0, B0, n⟩ := c
  simp only at c2 c3 c4 c5 cl1 cl2 ⊢
  obtain ⟨f1, f2, f3, f4⟩ := fillLoop_spec A0 n
  generalize hf : fillLoop A0 n = f at *
  obtain ⟨A, u1⟩ := f
  simp only at f1 f2 f3 f4 ⊢
  obtain ⟨g1, g2, g3, g4⟩ := fillLoop_spec B0 u1
  generalize hg : fillLoop B0 u1 = g at *
  obtain ⟨B, u2⟩ := g
  simp only at g1 g2 g3 g4 ⊢
  have hRinj : ∀ j j' (hj : j < R.length) (hj' : j' < R.length), R[j].key = R[j'].key → j = j' := by
    intro j j' hj hj' e
    have := hR.getElem_inj_iff (i := j) (j := j') (hi := by simpa [keys] using hj)
      (hj := by simpa [keys] using hj')
    exact this.1 (by simpa [keys] using e)
  have hLinj : ∀ j j' (hj : j < L.length) (hj' : j' < L.length), L[j].key = L[j'].key → j = j' := by
    intro j j' hj hj' e
    have := hL.getElem_inj_iff (i := j) (j := j') (hi := by simpa [keys] using hj)
      (hj := by simpa [keys] using hj')
    exact this.1 (by simpa [keys] using e)
  have hmemR : ∀ k, k ∈ keys R → ∃ j, ∃ hj : j < R.length, R[j].key = k := by
    intro k hk
    obtain ⟨r, hr, e⟩ := List.mem_map.1 hk
    obtain ⟨j, hj, e2⟩ := List.getElem_of_mem hr
    exact ⟨j, hj, by rw [e2, e]⟩
  have hmemL : ∀ k, k ∈ keys L → ∃ j, ∃ hj : j < L.length, L[j].key = k := by
    intro k hk
    obtain ⟨r, hr, e⟩ := List.mem_map.1 hk
    obtain ⟨j, hj, e2⟩ := List.getElem_of_mem hr
    exact ⟨j, hj, by rw [e2, e]⟩
  have inR : ∀ j (hj : j < R.length), R[j].key ∈ keys R := fun j hj =>
    List.mem_map.2 ⟨_, List.getElem_mem hj, rfl⟩
  have inL : ∀ j (hj : j < L.length), L[j].key ∈ keys L := fun j hj =>
    List.mem_map.2 ⟨_, List.getElem_mem hj, rfl⟩
  -- values in A
  have vA : ∀ i (hi : i < L.length), ∃ a, A[i]? = some a ∧
      (L[i].key ∈ keys R → A0[i]? = some a ∧ -(n : Int) ≤ a ∧ a < 0) ∧
      (L[i].key ∉ keys R → A0[i]? = some 0 ∧ (n : Int) < a ∧ a ≤ u1) := by
    intro i hi
    obtain ⟨a0, h1, h2, h3⟩ := c2 i hi
    obtain ⟨a, k1, k2, k3⟩ := f3 i a0 h1
    refine ⟨a, k1, fun h => ?_, fun h => ?_⟩
    · have := h3 h
      have hz := k2 (by omega)
      subst hz; exact ⟨h1, this.1, by omega⟩
    · have := h2 h; subst this; exact ⟨h1, k3 rfl⟩
  have vB : ∀ j (hj : j < R.length), ∃ b, B[j]? = some b ∧
      (R[j].key ∈ keys L → B0[j]? = some b ∧ b < 0 ∧
        ∀ i (hi : i < L.length), L[i].key = R[j].key → A[i]? = some b) ∧
      (R[j].key ∉ keys L → B0[j]? = some 0 ∧ (u1 : Int) < b) := by
    intro j hj
    by_cases h : R[j].key ∈ keys L
    · obtain ⟨i, hi, e⟩ := hmemL _ h
      obtain ⟨a, a1, a2, _⟩ := vA i hi
      obtain ⟨a2, a3, a4⟩ := a2 (by rw [e]; exact inR j hj)
      have hb0 := c5 i hi j hj e (fun j' hj' e' => by
        have := hRinj j' j (by omega) hj e'; omega)
      rw [a2] at hb0
      obtain ⟨b, k1, k2, _⟩ := g3 j a hb0
      have := k2 (by omega); subst this
      refine ⟨b, k1, fun _ => ⟨hb0, a4, ?_⟩, fun h' => absurd h h'⟩
      intro i' hi' e'
      have := hLinj i' i hi' hi (by rw [e', e]); subst this; exact a1
    · have := c4 j hj h
      rw [List.getElem?_replicate_of_lt hj] at this
      obtain ⟨b, k1, _, k3⟩ := g3 j 0 this
      exact ⟨b, k1, fun h' => absurd h' h, fun _ => ⟨this, (k3 rfl).1⟩⟩
  refine ⟨by omega, by rw [g1, cl2]; simp, ?_, ?_, ?_, ?_, ?_⟩
  · intro i hi
    obtain ⟨a, a1, a2, a3⟩ := vA i hi
    by_cases h : L[i].key ∈ keys R
    · have := a2 h; exact ⟨a, a1, by omega, by simp [h, this.2.2]⟩
    · have := a3 h; exact ⟨a, a1, by omega, by simp [h]; omega⟩
  · intro j hj
    obtain ⟨b, b1, b2, b3⟩ := vB j hj
    by_cases h : R[j].key ∈ keys L
    · have := b2 h; exact ⟨b, b1, by omega, by simp [h, this.2.1]⟩
    · have := b3 h; exact ⟨b, b1, by omega, by simp [h]; omega⟩
  · intro i hi j hj
    obtain ⟨a, a1, a2, a3⟩ := vA i hi
    obtain ⟨b, b1, b2, b3⟩ := vB j hj
    constructor
    · intro e
      rw [a1, b1] at e; cases e
      by_cases h : R[j].key ∈ keys L
      · obtain ⟨i', hi', e'⟩ := hmemL _ h
        have hA := (b2 h).2.2 i' hi' e'
        by_cases h' : L[i].key ∈ keys R
        · have q1 := (a2 h').1
          obtain ⟨a', w1, w2, _⟩ := vA i' hi'
          rw [hA] at w1; cases w1
          have q2 := (w2 (by rw [e']; exact inR j hj)).1
          have := c3 i i' a q1 q2 (by have := (a2 h').2; omega)
          subst this; exact e'
        · have := a3 h'; have := b2 h; omega
      · by_cases h' : L[i].key ∈ keys R
        · have := a2 h'; have := b3 h; omega
        · have := a3 h'; have := b3 h; omega
    · intro e
      rw [b1]
      exact (b2 (by rw [← e]; exact inL i hi)).2.2 i hi e
  · rw [List.nodup_iff_getElem?_ne_getElem?]
    intro i j hij hj e
    have hj' : j < L.length := by omega
    have hi' : i < L.length := by omega
    obtain ⟨a, a1, a2, a3⟩ := vA i hi'
    obtain ⟨b, b1, b2, b3⟩ := vA j hj'
    have e0 := e
    rw [a1, b1] at e; cases e
    by_cases h : L[i].key ∈ keys R <;> by_cases h' : L[j].key ∈ keys R
    · have := c3 i j a (a2 h).1 (b2 h').1 (by have := a2 h; omega); omega
    · have := a2 h; have := b3 h'; omega
    · have := a3 h; have := b2 h'; omega
    · have := f4 i j a (a3 h).1 (b3 h').1 a1 b1; omega
  · rw [List.nodup_iff_getElem?_ne_getElem?]
    intro i j hij hj e
    have hlen : B.length = R.length := by rw [g1, cl2]; simp
    have hj' : j < R.length := by omega
    have hi' : i < R.length := by omega
    obtain ⟨a, a1, a2, a3⟩ := vB i hi'
    obtain ⟨b, b1, b2, b3⟩ := vB j hj'
    rw [a1, b1] at e; cases e
    by_cases h : R[i].key ∈ keys L <;> by_cases h' : R[j].key ∈ keys L
    · obtain ⟨i', hi1, e1⟩ := hmemL _ h
      obtain ⟨j', hj1, e2⟩ := hmemL _ h'
      have q1 := (a2 h).2.2 i' hi1 e1
      have q2 := (b2 h').2.2 j' hj1 e2
      obtain ⟨x, w1, w2, _⟩ := vA i' hi1
      obtain ⟨y, z1, z2, _⟩ := vA j' hj1
      rw [q1] at w1; cases w1
      rw [q2] at z1; cases z1
      have := c3 i' j' a (w2 (by rw [e1]; exact inR i hi')).1 (z2 (by rw [e2]; exact inR j hj')).1
        (by have := (a2 h).2.1; omega)
      subst this
      have := hRinj i j hi' hj' (by rw [← e1, ← e2]); omega
    · have := a2 h; have := b3 h'; omega
    · have := a3 h; have := b2 h'; omega
    · have := g4 i j a (a3 h).1 (b3 h').1 a1 b1; omega

theorem filter_zip_map_key {L : IndexSet} {A : List Int} {p : (Nat × Int × Nat × List Tag) → Bool}
    (hlen : A.length = L.length)
    (h : ∀ i (hi : i < L.length), ∃ a, A[i]? = some a ∧ (a > 0 ↔ p L[i].key = true)) :
    ((L.zip A).filter (·.2 > 0)).map (·.1.key) = (keys L).filter p := by
  induction L generalizing A with
  | nil => simp [keys]
  | cons l L ih =>
    cases A with
    | nil => simp at hlen
    | cons a A =>
      obtain ⟨a', e, h0⟩ := h 0 (by simp)
      simp at e; subst e
      have hrec := ih (A := A) (by simpa using hlen) (fun i hi => by
        have := h (i + 1) (by simpa using hi); simpa using this)
      simp only [List.getElem_cons_zero] at h0
      simp only [keys, List.map_cons, List.zip_cons_cons, List.filter_cons] at hrec ⊢
      by_cases hp : p l.key = true
      · have := h0.2 hp; simp [hp, this, hrec]
      · have : ¬ a > 0 := fun h => hp (h0.1 h)
        simp [hp, this, hrec]

/-- **C12.** The product has each index of exactly one factor, once, and no shared index; first the
remaining indices of the left factor in order, then those of the right. -/
theorem C12_product_indices (L R : IndexSet) (hL : (keys L).Nodup) (hR : (keys R).Nodup) :
    keys ((prodInds L R).map (·.1)) = keys (uniqueInds L R) ++ keys (uniqueInds R L) ∧
    (∀ k, k ∈ keys ((prodInds L R).map (·.1)) ↔
      (k ∈ keys L ∧ k ∉ keys R) ∨ (k ∈ keys R ∧ k ∉ keys L)) ∧
    (keys ((prodInds L R).map (·.1))).Nodup := by
  obtain ⟨l1, l2, h1, h2, _, _, _⟩ := C12_labels L R hL hR
  have main : keys ((prodInds L R).map (·.1)) = keys (uniqueInds L R) ++ keys (uniqueInds R L) := by
    unfold prodInds contractIS
    simp only [keys, List.map_append, List.map_map]
    congr 1
    · have := filter_zip_map_key (L := L) (A := (computeLabels L R).1)
        (p := fun k => !decide (k ∈ keys R)) l1 (by
          intro i hi
          obtain ⟨a, e, hn, hlt⟩ := h1 i hi
          refine ⟨a, e, ?_⟩
          rw [Bool.not_eq_true', decide_eq_false_iff_not, ← hlt]; omega)
      rw [show List.map Index.key (uniqueInds L R) = keys (uniqueInds L R) from rfl, keys_unique,
        ← this]
      apply List.map_congr_left
      intro p _
      simp only [Function.comp]
      split <;> rfl
    · have := filter_zip_map_key (L := R) (A := (computeLabels L R).2.1)
        (p := fun k => !decide (k ∈ keys L)) l2 (by
          intro i hi
          obtain ⟨a, e, hn, hlt⟩ := h2 i hi
          refine ⟨a, e, ?_⟩
          rw [Bool.not_eq_true', decide_eq_false_iff_not, ← hlt]; omega)
      rw [show List.map Index.key (uniqueInds R L) = keys (uniqueInds R L) from rfl, keys_unique,
        ← this]
      apply List.map_congr_left
      intro p _
      simp only [Function.comp]
      split <;> rfl
  have hu1 := C11_unique L R []
  have hu2 := C11_unique R L []
  refine ⟨main, fun k => ?_, ?_⟩
  · rw [main, List.mem_append, hu1.1, hu2.1]
  · rw [main, List.nodup_append]
    refine ⟨hu1.2.2.1 hL, hu2.2.2.1 hR, ?_⟩
    intro x hx y hy e
    subst e
    exact ((hu1.1 x).1 hx).2 ((hu2.1 x).1 hy).1

/-- **C12.** The label attached to each index of the product is the label it has in its factor. -/
theorem C12_product_labels (L R : IndexSet) (i : Index) (c : Int) (h : (i, c) ∈ prodInds L R) :
    c > 0 ∧ ((∃ l, l.key = i.key ∧ (l, c) ∈ L.zip (computeLabels L R).1) ∨
      (∃ r, r.key = i.key ∧ (r, c) ∈ R.zip (computeLabels L R).2.1)) := by
  unfold prodInds contractIS at h
  rcases List.mem_append.1 h with h | h
  · obtain ⟨p, hp, e⟩ := List.mem_map.1 h
    obtain ⟨h1, h2⟩ := List.mem_filter.1 hp
    simp only [Prod.mk.injEq] at e
    obtain ⟨e1, e2⟩ := e
    refine ⟨by rw [← e2]; simpa using h2, Or.inl ⟨p.1, ?_, by rw [← e2]; exact h1⟩⟩
    rw [← e1]; split <;> rfl
  · obtain ⟨p, hp, e⟩ := List.mem_map.1 h
    obtain ⟨h1, h2⟩ := List.mem_filter.1 hp
    simp only [Prod.mk.injEq] at e
    obtain ⟨e1, e2⟩ := e
    refine ⟨by rw [← e2]; simpa using h2, Or.inr ⟨p.1, ?_, by rw [← e2]; exact h1⟩⟩
    rw [← e1]; split <;> rfl

/-! ## C05 -/

/-- Whether the operation's match argument covers this index. -/
def Match.covers (m : Match) (j : Index) : Prop :=
  match m with
  | .all => True
  | .inds s => j.key ∈ keys s
  | .tags ts => j.tags.hasTags ts = true

open Classical in
theorem mapPrime_spec (old new : Int) (is : IndexSet) (m : Match)
    (hn : ∀ (j k : Nat) (hj : j < is.length) (hk : k < is.length), is[j].plev = old →
      is[j].key = is[k].key → j = k) :
    mapPrime old new is m =
      is.map fun j => if j.plev = old ∧ m.covers j then j.setPrime new else j := by
  cases m with
  | all => simp [mapPrime, modifyMatch, Match.covers]
  | inds s =>
    rw [mapPrime_inds old new is s hn]
    apply List.map_congr_left
    intro j _
    simp only [Match.covers]
    congr
  | tags ts =>
    unfold mapPrime modifyMatch
    apply List.map_congr_left
    intro j _
    simp only [Match.covers]
    by_cases h1 : j.tags.hasTags ts = true <;> by_cases h2 : j.plev = old <;> simp [h1, h2]

theorem nodup_inj {is : IndexSet} (h : (keys is).Nodup) : ∀ (j k : Nat) (hj : j < is.length)
    (hk : k < is.length), is[j].key = is[k].key → j = k := by
  intro j k hj hk e
  have := h.getElem_inj_iff (i := j) (j := k) (hi := by simpa [keys] using hj)
    (hj := by simpa [keys] using hk)
  exact this.1 (by simpa [keys] using e)

open Classical in
/-- **C05.** `mapPrime(p,q[,match])` sets prime level `q` on exactly the matched indices of prime
level `p`. -/
theorem C05_mapPrime (p q : Int) (is : IndexSet) (m : Match) (hn : (keys is).Nodup) :
    mapPrime p q is m = is.map fun j => if j.plev = p ∧ m.covers j then j.setPrime q else j :=
  mapPrime_spec p q is m (fun j k hj hk _ e => nodup_inj hn j k hj hk e)

open Classical in
/-- **C05.** `swapPrime(p,q[,match])` exchanges prime levels `p` and `q` on the matched indices and
changes nothing else, provided the reserved level is not used by any index nor as an argument. -/
theorem C05_swapPrime (p q : Int) (is : IndexSet) (m : Match) (hn : (keys is).Nodup)
    (ht : ∀ j ∈ is, j.plev ≠ tempPrime) (hp : p ≠ tempPrime) (hq : q ≠ tempPrime) :
    swapPrime p q is m = is.map fun j =>
      if m.covers j ∧ j.plev = p then j.setPrime q
      else if m.covers j ∧ j.plev = q then j.setPrime p else j := by
  unfold swapPrime
  have hplev : ∀ (j : Index) (x : Int), (j.setPrime x).plev = x := fun _ _ => rfl
  rw [C05_mapPrime p tempPrime is m hn]
  rw [mapPrime_spec q p _ m]
  · rw [mapPrime_spec tempPrime q _ .all]
    · rw [List.map_map, List.map_map]
      apply List.map_congr_left
      intro j hj
      have h0 := ht j hj
      have hall : ∀ x : Index, Match.covers .all x ↔ True := fun _ => Iff.rfl
      simp only [Function.comp, hall, and_true]
      by_cases hc : m.covers j
      · by_cases h1 : j.plev = p
        · simp only [h1, hc, and_self, if_true, hplev]
          have : ¬ tempPrime = q := fun e => hq e.symm
          simp only [this, false_and, if_false, hplev, if_true]
          rfl
        · by_cases h2 : j.plev = q
          · have h1' : ¬ q = p := fun e => h1 (by rw [h2, e])
            simp [h1', h2, hc, hplev, hp]
          · simp [h1, h2, h0]
      · simp [hc, h0]
    · intro j k hj hk
      simp only [List.getElem_map]
      intro e1 e2
      -- an element with the temporary level comes from step 1 and keeps id and names
      simp only [List.length_map] at hj hk
      have lift : ∀ x, x < is.length → True := fun _ _ => trivial
      apply nodup_inj hn j k hj hk
      have gen : ∀ (x : Index), x ∈ is →
          (if (if x.plev = p ∧ m.covers x then x.setPrime tempPrime else x).plev = q ∧
              m.covers (if x.plev = p ∧ m.covers x then x.setPrime tempPrime else x) then
            (if x.plev = p ∧ m.covers x then x.setPrime tempPrime else x).setPrime p
          else (if x.plev = p ∧ m.covers x then x.setPrime tempPrime else x)).plev = tempPrime →
          x.plev = p ∧ m.covers x := by
        intro x hx e
        by_cases h : x.plev = p ∧ m.covers x
        · exact h
        · simp only [h, if_false] at e
          split at e
          · exact absurd e hp
          · exact absurd e (ht x hx)
      have gj := gen is[j] (List.getElem_mem hj) e1
      have e3 : (if (if is[k].plev = p ∧ m.covers is[k] then is[k].setPrime tempPrime else is[k]).plev = q ∧
              m.covers (if is[k].plev = p ∧ m.covers is[k] then is[k].setPrime tempPrime else is[k]) then
            (if is[k].plev = p ∧ m.covers is[k] then is[k].setPrime tempPrime else is[k]).setPrime p
          else (if is[k].plev = p ∧ m.covers is[k] then is[k].setPrime tempPrime else is[k])).plev = tempPrime := by
        have := congrArg (fun t => t.2.1) e2
        exact this.symm.trans e1
      have gk := gen is[k] (List.getElem_mem hk) e3
      have hq' : ¬ tempPrime = q := fun e => hq e.symm
      simp only [gj.1, gj.2, gk.1, gk.2, and_self, if_true, hplev, hq', false_and, if_false] at e2
      have hk1 := gj.1; have hk2 := gk.1
      unfold Index.plev at hk1 hk2
      simp only [Index.key, Index.setPrime, TagSet.setPrime, TagSet.live, Prod.mk.injEq] at e2 ⊢
      exact ⟨e2.1, by rw [hk1, hk2], e2.2.2⟩
  · intro j k hj hk
    simp only [List.getElem_map, List.length_map] at hj hk ⊢
    intro e1 e2
    apply nodup_inj hn j k hj hk
    have hq' : ¬ tempPrime = q := fun e => hq e.symm
    have hj' : ¬ (is[j].plev = p ∧ m.covers is[j]) := by
      intro h; simp only [h, and_self, if_true, hplev] at e1; exact hq e1.symm
    simp only [hj', if_false] at e1 e2
    have hk' : ¬ (is[k].plev = p ∧ m.covers is[k]) := by
      intro h
      simp only [h, and_self, if_true] at e2
      have := congrArg (fun t => t.2.1) e2
      exact ht is[j] (List.getElem_mem hj) this
    simp only [hk', if_false] at e2
    exact e2

/-! ### swapTags -/

theorem reach_ofTag (t : Tag) (h : t.toInt < 0) (h0 : t ≠ Tag.empty) :
    TagSet.Reach ⟨[t, Tag.empty, Tag.empty, Tag.empty], -1, 1⟩ := by
  refine TagSet.Reach.step (T := TagSet.default) (op := .addTag t) TagSet.Reach.init
    (by simp [TagSet.Op.args]) ?_
  have : ¬ t.toInt ≥ 0 := by omega
  simp [TagSet.step, TagSet.addTag, this, TagSet.default, TagSet.tagPosition, TagSet.live, h0,
    TagSet.addLoop]
  rfl

theorem reach_temp (b : Bool) : TagSet.Reach (tempTags b) := by
  have h1 := reach_ofTag tempTag (by decide) (by decide)
  cases b with
  | false => exact h1
  | true =>
    exact TagSet.Reach.step (op := .setPrime 431543) h1 (by simp [TagSet.Op.args]) rfl

/-- The composition `swapTags` performs on the tags of each index (no match argument). -/
def swapOn (a b T : TagSet) : Res TagSet :=
  (T.replaceTags a (tempTags (decide (a.plev ≥ 0)))).bind fun T1 =>
  (T1.replaceTags b a).bind fun T2 => T2.replaceTags (tempTags (decide (a.plev ≥ 0))) b

theorem mapM_ok {f : Index → Res Index} : ∀ {is js : IndexSet}, mapM f is = .ok js →
    js.length = is.length ∧ ∀ k (h : k < is.length), ∃ j, js[k]? = some j ∧ f is[k] = .ok j := by
  intro is
  induction is with
  | nil => intro js h; cases h; simp
  | cons i is ih =>
    intro js h
    simp only [mapM, Res.bind_eq_ok] at h
    obtain ⟨j, h1, js', h2, h3⟩ := h
    cases h3
    obtain ⟨l, hk⟩ := ih h2
    refine ⟨by simp [l], ?_⟩
    intro k hkl
    cases k with
    | zero => exact ⟨j, rfl, h1⟩
    | succ k => simpa using hk k (by simpa using hkl)

/-- What one index goes through in `swapTags(a,b)` without a match argument. -/
theorem swapTags_unfold {a b : TagSet} {is js : IndexSet} (ha : TagSet.Reach a) (hb : TagSet.Reach b)
    (his : ∀ j ∈ is, TagSet.Reach j.tags) (h : swapTags a b is .all = .ok js) :
    ((a.plev ≥ 0) ↔ (b.plev ≥ 0)) ∧ js.length = is.length ∧ ∀ k (hk : k < is.length), ∃ j T1 T2,
      js[k]? = some j ∧ j = { is[k] with tags := j.tags } ∧
      TagSet.Reach T1 ∧ TagSet.Reach T2 ∧ TagSet.Reach j.tags ∧
      is[k].tags.replaceTags a (tempTags (decide (a.plev ≥ 0))) = .ok T1 ∧
      T1.replaceTags b a = .ok T2 ∧
      T2.replaceTags (tempTags (decide (a.plev ≥ 0))) b = .ok j.tags := by
  unfold swapTags at h
  split at h
  · cases h
  split at h
  · cases h
  rename_i hp1 hp2
  simp only [replaceTags, Res.bind_eq_ok] at h
  obtain ⟨is1, h1, is2, h2, h3⟩ := h
  obtain ⟨l1, m1⟩ := mapM_ok h1
  obtain ⟨l2, m2⟩ := mapM_ok h2
  obtain ⟨l3, m3⟩ := mapM_ok h3
  refine ⟨by omega, by omega, fun k hk => ?_⟩
  obtain ⟨j1, e1, f1⟩ := m1 k hk
  obtain ⟨j2, e2, f2⟩ := m2 k (by omega)
  obtain ⟨j3, e3, f3⟩ := m3 k (by omega)
  have e1' : is1[k]'(by omega) = j1 := by
    rw [List.getElem?_eq_getElem (by omega)] at e1; exact Option.some.inj e1
  have e2' : is2[k]'(by omega) = j2 := by
    rw [List.getElem?_eq_getElem (by omega)] at e2; exact Option.some.inj e2
  rw [e1'] at f2; rw [e2'] at f3
  have hTr := his _ (List.getElem_mem hk)
  simp only [withTags, Res.bind_eq_ok, Res.ok.injEq] at f1 f2 f3
  obtain ⟨T1, f1, rfl⟩ := f1
  obtain ⟨T2, f2, rfl⟩ := f2
  obtain ⟨T3, f3, rfl⟩ := f3
  have rt := reach_temp (decide (a.plev ≥ 0))
  have r1 : TagSet.Reach T1 := TagSet.Reach.step (op := .replaceTags a (tempTags (decide (a.plev ≥ 0))))
    hTr (by intro x hx; simp [TagSet.Op.args] at hx; rcases hx with rfl | rfl <;> assumption) f1
  have r2 : TagSet.Reach T2 := TagSet.Reach.step (op := .replaceTags b a) r1
    (by intro x hx; simp [TagSet.Op.args] at hx; rcases hx with rfl | rfl <;> assumption) f2
  have r3 : TagSet.Reach T3 := TagSet.Reach.step
    (op := .replaceTags (tempTags (decide (a.plev ≥ 0))) b) r2
    (by intro x hx; simp [TagSet.Op.args] at hx; rcases hx with rfl | rfl <;> assumption) f3
  exact ⟨_, T1, T2, e3, rfl, r1, r2, r3, f1, f2, f3⟩

/-- **C05.** `swapTags(a,b)` for name tags, without a match argument: if `a` and `b` have disjoint
names and the temporary tag is not in use, an index having all of `a` but not of `b` gets `b` instead
of `a`, one having `b` but not `a` gets `a` instead of `b`, all others keep their names; prime levels
and everything else are unchanged. -/
theorem C05_swapTags_partial (a b : TagSet) (is js : IndexSet) (ha : TagSet.Reach a)
    (hb : TagSet.Reach b)
    (his : ∀ j ∈ is, TagSet.Reach j.tags) (hap : a.plev < 0) (hd : ∀ u, u ∈ a.live → u ∉ b.live)
    (ht : ∀ j ∈ is, tempTag ∉ j.tags.live) (hta : tempTag ∉ a.live) (htb : tempTag ∉ b.live)
    (h : swapTags a b is .all = .ok js) :
    js.length = is.length ∧ ∀ k (hk : k < is.length), ∃ j, js[k]? = some j ∧
      j = { is[k] with tags := j.tags } ∧ j.plev = is[k].plev ∧
      ((∀ u ∈ a.live, u ∈ is[k].tags.live) → ¬ (∀ u ∈ b.live, u ∈ is[k].tags.live) →
        ∀ u, u ∈ j.tags.live ↔ (u ∈ is[k].tags.live ∧ u ∉ a.live) ∨ u ∈ b.live) ∧
      (¬ (∀ u ∈ a.live, u ∈ is[k].tags.live) → (∀ u ∈ b.live, u ∈ is[k].tags.live) →
        ∀ u, u ∈ j.tags.live ↔ (u ∈ is[k].tags.live ∧ u ∉ b.live) ∨ u ∈ a.live) ∧
      (((∀ u ∈ a.live, u ∈ is[k].tags.live) ↔ (∀ u ∈ b.live, u ∈ is[k].tags.live)) →
        ∀ u, u ∈ j.tags.live ↔ u ∈ is[k].tags.live) := by
  obtain ⟨hpp, hl, hall⟩ := swapTags_unfold ha hb his h
  refine ⟨hl, fun k hk => ?_⟩
  obtain ⟨j, T1, T2, ej, js0, r1, r2, r3, f1, f2, f3⟩ := hall k hk
  have hTt := ht _ (List.getElem_mem hk)
  have hTr := his _ (List.getElem_mem hk)
  have hbp : b.plev < 0 := by omega
  have hap' : ¬ a.plev ≥ 0 := by omega
  have hbp' : ¬ b.plev ≥ 0 := by omega
  have hdec : decide (a.plev ≥ 0) = false := by simp; omega
  rw [hdec] at f1 f3
  have rt := reach_temp false
  refine ⟨j, ej, js0, ?_⟩
  unfold Index.plev
  generalize is[k] = I at *
  generalize j.tags = T3 at *
  obtain ⟨_, n1, p1⟩ := TagSet.C04_replaceTags hTr ha rt f1
  obtain ⟨_, n2, p2⟩ := TagSet.C04_replaceTags r1 hb ha f2
  obtain ⟨_, n3, p3⟩ := TagSet.C04_replaceTags r2 rt hb f3
  have tlive : (tempTags false).live = [tempTag] := by simp [tempTags, TagSet.live]
  have tplev : ¬ (tempTags false).plev ≥ 0 := by simp [tempTags]
  have hasA : ∀ T : TagSet, T.hasTags a = true ↔ ∀ u ∈ a.live, u ∈ T.live := by
    intro T; rw [TagSet.C01_hasTags]; simp [hap']
  have hasB : ∀ T : TagSet, T.hasTags b = true ↔ ∀ u ∈ b.live, u ∈ T.live := by
    intro T; rw [TagSet.C01_hasTags]; simp [hbp']
  have hasT : ∀ T : TagSet, T.hasTags (tempTags false) = true ↔ tempTag ∈ T.live := by
    intro T; rw [TagSet.C01_hasTags, tlive]; simp [tplev]
  have bf : ∀ {x : Bool}, ¬ x = true → x = false := fun h => Bool.eq_false_iff.2 h
  simp only [hap', hbp', tplev, if_false, tlive, List.mem_singleton] at p1 p2 p3
  rw [← hasA, ← hasB]
  by_cases hA : I.tags.hasTags a = true
  · obtain ⟨q1, q2⟩ := p1 hA
    have hB1 : T1.hasTags b = true ↔ I.tags.hasTags b = true := by
      rw [hasB, hasB]
      constructor
      · intro hc u hu
        rcases (q2 u).1 (hc u hu) with h | h
        · exact h.1
        · subst h; exact absurd hu htb
      · intro hc u hu
        exact (q2 u).2 (Or.inl ⟨hc u hu, fun h => hd u h hu⟩)
    by_cases hB : I.tags.hasTags b = true
    · obtain ⟨s1, s2⟩ := p2 (hB1.2 hB)
      have hT2 : T2.hasTags (tempTags false) = true := by
        rw [hasT]; exact (s2 _).2 (Or.inl ⟨(q2 _).2 (Or.inr rfl), htb⟩)
      obtain ⟨t1, t2⟩ := p3 hT2
      refine ⟨by rw [t1, s1, q1], fun _ h => absurd hB h, fun h => absurd hA h, fun _ u => ?_⟩
      rw [t2, s2, q2]
      rw [hasA] at hA; rw [hasB] at hB
      constructor
      · rintro (⟨⟨⟨h | h, _⟩ | h, h'⟩⟩ | h)
        · exact h.1
        · exact absurd h h'
        · exact hA u h
        · exact hB u h
      · intro h
        by_cases ub : u ∈ b.live
        · exact Or.inr ub
        · refine Or.inl ⟨?_, fun e => hTt (by rw [← e]; exact h)⟩
          by_cases ua : u ∈ a.live
          · exact Or.inr ua
          · exact Or.inl ⟨Or.inl ⟨h, ua⟩, ub⟩
    · have e2 := n2 (bf (fun h => hB (hB1.1 h)))
      subst e2
      have hT2 : T2.hasTags (tempTags false) = true := by
        rw [hasT]; exact (q2 _).2 (Or.inr rfl)
      obtain ⟨t1, t2⟩ := p3 hT2
      refine ⟨by rw [t1, q1], fun _ _ u => ?_, fun h => absurd hA h, fun h => absurd (h.1 hA) hB⟩
      rw [t2, q2]
      constructor
      · rintro (⟨h | h, h'⟩ | h)
        · exact Or.inl h
        · exact absurd h h'
        · exact Or.inr h
      · rintro (h | h)
        · exact Or.inl ⟨Or.inl h, fun e => hTt (by rw [← e]; exact h.1)⟩
        · exact Or.inr h
  · have e1 := n1 (bf hA)
    subst e1
    by_cases hB : I.tags.hasTags b = true
    · obtain ⟨s1, s2⟩ := p2 hB
      have hT2 : T2.hasTags (tempTags false) = false := bf (by
        rw [hasT, s2]; rintro (h | h)
        · exact hTt h.1
        · exact hta h)
      have e3 := n3 hT2
      subst e3
      exact ⟨s1, fun h => absurd h hA, fun _ _ => s2, fun h => absurd (h.2 hB) hA⟩
    · have e2 := n2 (bf hB)
      subst e2
      have hT2 : I.tags.hasTags (tempTags false) = false := bf (by rw [hasT]; exact hTt)
      have e3 := n3 hT2
      subst e3
      exact ⟨rfl, fun h => absurd h hA, fun _ h => absurd h hB, fun _ u => Iff.rfl⟩

/-- **C05 fails for `swapTags` with a match argument.** An index with both tags `a` and `b`, matched
by itself (`swapTags("a","b",I)`) or by tag (`swapTags("a","b","a")`): after the first replacement it
is no longer matched, and the result has lost the tag `a`. -/
theorem C05_swapTags_match_counterexample :
    ∃ (a b : TagSet) (I J : Index), TagSet.Reach a ∧ TagSet.Reach b ∧ TagSet.Reach I.tags ∧
      a.live = [Tag.ofBytes [97]] ∧ b.live = [Tag.ofBytes [98]] ∧
      I.tags.live = [Tag.ofBytes [97], Tag.ofBytes [98]] ∧
      swapTags a b [I] (.inds [I]) = .ok [J] ∧ swapTags a b [I] (.tags a) = .ok [J] ∧
      J.tags.live = [Tag.ofBytes [98]] := by
  refine ⟨⟨[Tag.ofBytes [97], Tag.empty, Tag.empty, Tag.empty], -1, 1⟩,
    ⟨[Tag.ofBytes [98], Tag.empty, Tag.empty, Tag.empty], -1, 1⟩,
    ⟨7, 2, 1, ⟨[Tag.ofBytes [97], Tag.ofBytes [98], Tag.empty, Tag.empty], -1, 2⟩, []⟩,
    ⟨7, 2, 1, ⟨[Tag.ofBytes [98], Tag.empty, Tag.empty, Tag.empty], -1, 1⟩, []⟩,
    reach_ofTag _ (by decide) (by decide), reach_ofTag _ (by decide) (by decide), ?_,
    by decide, by decide, by decide, by decide, by decide, by decide⟩
  exact TagSet.Reach.step (op := .addTag (Tag.ofBytes [98]))
    (reach_ofTag (Tag.ofBytes [97]) (by decide) (by decide)) (by simp [TagSet.Op.args]) (by decide)

/-! ## C13 -/

theorem mulDelta_replace {T : IndexSet} {J K : Index} (hT : (keys T).Nodup)
    (hJ : J.key ∈ keys T) (hK : K.key ∉ keys T) (hd : J.dim = K.dim) :
    mulDelta T J K = T.map fun x => if x.key = J.key then K else x := by
  have hne : J.key ≠ K.key := fun e => hK (e ▸ hJ)
  have hR : (keys [J, K]).Nodup := by simp [keys, hne]
  obtain ⟨l1, l2, h1, h2, h3, _, _⟩ := C12_labels T [J, K] hT hR
  unfold mulDelta
  generalize computeLabels T [J, K] = c at *
  obtain ⟨A, B, n⟩ := c
  simp only at l1 l2 h1 h2 h3 ⊢
  obtain ⟨b0, e0, _, p0⟩ := h2 0 (by simp)
  obtain ⟨b1, e1, _, p1⟩ := h2 1 (by simp)
  have g0 : B.getD 0 0 = b0 := by simp [List.getD, e0]
  have g1 : B.getD 1 0 = b1 := by simp [List.getD, e1]
  rw [g0, g1]
  have q0 : b0 < 0 := p0.2 hJ
  have q1 : ¬ b1 < 0 := fun h => hK (p1.1 h)
  have hcond : J.dim = K.dim ∧ (decide (b0 < 0) != decide (b1 < 0)) = true := by
    refine ⟨hd, by simp [q0, q1]⟩
  rw [if_pos hcond]
  have hb0 : ¬ b0 ≥ 0 := by omega
  apply List.ext_getElem
  · simp [l1]
  · intro i hi1 hi2
    have hi : i < T.length := by simpa using hi2
    obtain ⟨a, ea, _, pa⟩ := h1 i hi
    have ga : A[i]'(by omega) = a := by
      rw [List.getElem?_eq_getElem (by omega)] at ea; exact Option.some.inj ea
    simp only [List.getElem_map, List.getElem_zip, ga, hb0, if_false]
    have : a < 0 ↔ T[i].key = J.key := by
      rw [pa]; simp only [keys, List.map_cons, List.map_nil, List.mem_cons, List.not_mem_nil, or_false]
      constructor
      · rintro (h | h)
        · exact h
        · exact absurd (List.mem_map.2 ⟨T[i], List.getElem_mem hi, h⟩) hK
      · exact Or.inl
    simp only [this]

/-- What `replaceInds` should do to one index: substitute by the entry of `is2` at the first
position where `is1` names it, keeping the arrow of the old index. -/
def substIdx (is1 is2 : IndexSet) (J : Index) : Index :=
  match is1.findIdx? (fun x => x.nonNull && J.eq x) with
  | none => J
  | some i => match is2[i]? with
    | some n => { n with dir := J.dir }
    | none => J

/-- The same with the temporary prime level added. -/
def substTmp (is1 is2 : IndexSet) (J : Index) : Index :=
  match is1.findIdx? (fun x => x.nonNull && J.eq x) with
  | none => J
  | some i => match is2[i]? with
    | some n => { n.prime replTemp with dir := J.dir }
    | none => J

/-- The new arrow of the replaced index. -/
theorem newDir {J np : Index} (hJ : J.dir = 1 ∨ J.dir = -1) (hn : np.dir = 1 ∨ np.dir = -1) :
    (if J.dag.dir = np.dir then np.dag else np) = { np with dir := J.dir } := by
  cases np
  simp only [Index.dag] at *
  rcases hJ with h | h <;> rcases hn with h' | h' <;> simp [h, h']

theorem prime_key_inj {a b : Index} {n : Int} (h : (a.prime n).key = (b.prime n).key) :
    a.key = b.key := by
  simp only [Index.key, Index.prime, TagSet.prime, TagSet.live, Prod.mk.injEq] at h ⊢
  exact ⟨h.1, by omega, h.2.2⟩

theorem foldl_modify_nodup {α} (f : α → α) (ks : List Nat) (hk : ks.Nodup) :
    ∀ (l : List α) (j : Nat), (ks.foldl (fun s k => s.modify k f) l)[j]? =
      if j ∈ ks then l[j]?.map f else l[j]? := by
  induction ks with
  | nil => simp
  | cons k ks ih =>
    intro l j
    have hk' := List.nodup_cons.1 hk
    rw [List.foldl_cons, ih hk'.2, List.getElem?_modify]
    by_cases hkj : k = j
    · subst hkj
      simp [hk'.1]
    · have : ¬ j = k := fun e => hkj e.symm
      simp [hkj, this]

theorem positions_nodup {is m : IndexSet} (hm : (keys m).Nodup) : (indexPositions is m).Nodup := by
  unfold indexPositions
  induction m with
  | nil => simp
  | cons x m ih =>
    have hm' : x.key ∉ keys m ∧ (keys m).Nodup := by simpa [keys] using hm
    rw [List.filterMap_cons]
    split
    · exact ih hm'.2
    · rename_i k hk
      refine List.nodup_cons.2 ⟨?_, ih hm'.2⟩
      intro hmem
      obtain ⟨y, hy, e⟩ := List.mem_filterMap.1 hmem
      obtain ⟨h1, h2, _⟩ := findIdx?_first hk
      obtain ⟨_, h4, _⟩ := findIdx?_first e
      have := (Index.eq_iff.1 h2).symm.trans (Index.eq_iff.1 h4)
      exact hm'.1 (List.mem_map.2 ⟨y, hy, this.symm⟩)

/-- Same list up to the arrows, which are `In` or `Out`. -/
def SameButDir (a b : IndexSet) : Prop := a.length = b.length ∧ ∀ (i : Nat) (x y : Index),
  a[i]? = some x → b[i]? = some y → (x = { y with dir := x.dir } ∧ (x.dir = 1 ∨ x.dir = -1))

theorem SameButDir.keys_eq {a b : IndexSet} (h : SameButDir a b) : keys a = keys b := by
  apply List.ext_getElem?
  intro i
  unfold keys
  rw [List.getElem?_map, List.getElem?_map]
  by_cases hi : i < a.length
  · have hb : i < b.length := by rw [← h.1]; exact hi
    rw [List.getElem?_eq_getElem hi, List.getElem?_eq_getElem hb]
    have := (h.2 i _ _ (List.getElem?_eq_getElem hi) (List.getElem?_eq_getElem hb)).1
    simp only [Option.map_some]
    rw [this]; rfl
  · have hb : ¬ i < b.length := by rw [← h.1]; exact hi
    rw [List.getElem?_eq_none (by omega), List.getElem?_eq_none (by omega)]

/-- **C13.** `replaceInds` substitutes simultaneously: the result is the original list with every
index named by `is1` replaced by its partner of `is2` (with the arrow of the index it replaces), in
the same positions, even if `is1` and `is2` overlap. -/
theorem C13_replaceInds (T is1 is2 : IndexSet) (hT : (keys T).Nodup) (h2 : (keys is2).Nodup)
    (hlen : is1.length = is2.length)
    (hdirT : ∀ j ∈ T, j.dir = 1 ∨ j.dir = -1) (hdir2 : ∀ j ∈ is2, j.dir = 1 ∨ j.dir = -1)
    (htmp : ∀ j ∈ is2, (j.prime replTemp).key ∉ keys T)
    (hdim : ∀ i (h : i < is1.length), ∀ j ∈ T, j.key = is1[i].key → j.dim = is2[i].dim) :
    replaceInds T is1 is2 = .ok (T.map (substIdx is1 is2)) := by
  -- what `substTmp` does
  have hst : ∀ x ∈ T, (substTmp is1 is2 x = x ∧ substIdx is1 is2 x = x ∧
        is1.findIdx? (fun y => y.nonNull && x.eq y) = none) ∨
      ∃ i, ∃ h : i < is2.length, is1.findIdx? (fun y => y.nonNull && x.eq y) = some i ∧
        x.key = (is1[i]'(by omega)).key ∧
        substTmp is1 is2 x = { is2[i].prime replTemp with dir := x.dir } ∧
        substIdx is1 is2 x = { is2[i] with dir := x.dir } := by
    intro x _
    unfold substTmp substIdx
    cases hf : is1.findIdx? (fun y => y.nonNull && x.eq y) with
    | none => left; simp
    | some i =>
      right
      obtain ⟨h1, h3, _⟩ := findIdx?_first hf
      have hi : i < is2.length := by omega
      rw [Bool.and_eq_true] at h3
      exact ⟨i, hi, rfl, Index.eq_iff.1 h3.2, by simp [hi], by simp [hi]⟩
  have memT : ∀ x ∈ T, x.key ∈ keys T := fun x hx => List.mem_map.2 ⟨x, hx, rfl⟩
  have kd : ∀ (x : Index) (d : Int), ({ x with dir := d } : Index).key = x.key := fun _ _ => rfl
  have fact2 : ∀ x ∈ T, ∀ y ∈ T, (substTmp is1 is2 x).key = y.key → x.key = y.key := by
    intro x hx y hy e
    rcases hst x hx with h | ⟨i, hi, _, _, h, _⟩
    · rw [h.1] at e; exact e
    · rw [h, kd] at e
      exact absurd (by rw [e]; exact memT y hy) (htmp is2[i] (List.getElem_mem hi))
  have fact1 : ∀ x ∈ T, ∀ y ∈ T, (substTmp is1 is2 x).key = (substTmp is1 is2 y).key →
      x.key = y.key := by
    intro x hx y hy e
    rcases hst y hy with h | ⟨i, hi, _, hk, h, _⟩
    · rw [h.1] at e; exact fact2 x hx y hy e
    · rcases hst x hx with h' | ⟨i', hi', _, hk', h', _⟩
      · rw [h'.1] at e
        exact (fact2 y hy x hx e.symm).symm
      · rw [h, h', kd, kd] at e
        have := nodup_inj h2 i' i hi' hi (prime_key_inj e)
        subst this; rw [hk, hk']
  have inj : ∀ x ∈ T, ∀ y ∈ T, x.key = y.key → x = y := by
    intro x hx y hy e
    obtain ⟨i, hi, rfl⟩ := List.getElem_of_mem hx
    obtain ⟨j, hj, rfl⟩ := List.getElem_of_mem hy
    have := nodup_inj hT i j hi hj e; subst this; rfl
  -- the loop
  have loop : ∀ (S P : IndexSet) (p2 : IndexSet), P ++ S = T →
      SameButDir p2 (is2.map (·.prime replTemp)) →
      ∃ p2', SameButDir p2' (is2.map (·.prime replTemp)) ∧
        Res.foldM (replOne is1 is2) (P.map (substTmp is1 is2) ++ S, p2) S
          = .ok (T.map (substTmp is1 is2), p2') := by
    intro S
    induction S with
    | nil => intro P p2 e hp; simp at e; subst e; exact ⟨p2, hp, by simp⟩
    | cons J S ih =>
      intro P p2 e hp
      have hJ : J ∈ T := by rw [← e]; simp
      have hP : ∀ x ∈ P, x ∈ T := fun x hx => by rw [← e]; simp [hx]
      have hS : ∀ x ∈ S, x ∈ T := fun x hx => by rw [← e]; simp [hx]
      have hnd : (keys P ++ J.key :: keys S).Nodup := by
        have := hT; rw [← e] at this; simpa [keys] using this
      obtain ⟨ndP, ndJS, dis⟩ := List.nodup_append.1 hnd
      obtain ⟨nJ, ndS⟩ := List.nodup_cons.1 ndJS
      have e' : (P ++ [J]) ++ S = T := by rw [← e]; simp
      suffices hstep : ∃ p2', SameButDir p2' (is2.map (·.prime replTemp)) ∧
          replOne is1 is2 (P.map (substTmp is1 is2) ++ J :: S, p2) J
            = .ok ((P ++ [J]).map (substTmp is1 is2) ++ S, p2') by
        obtain ⟨p2', hp', hs⟩ := hstep
        obtain ⟨p3, hp3, h3⟩ := ih (P ++ [J]) p2' e' hp'
        exact ⟨p3, hp3, by rw [Res.foldM_cons, hs, Res.bind_ok, h3]⟩
      unfold replOne
      rcases hst J hJ with ⟨h, _, hf⟩ | ⟨i, hi, hf, hk, h, _⟩
      · rw [hf]; exact ⟨p2, hp, by simp [h]⟩
      · rw [hf]
        have hpl : i < p2.length := by rw [hp.1]; simpa using hi
        have hd := hdim i (by omega) J hJ hk
        obtain ⟨q1, q2⟩ := hp.2 i p2[i] (is2[i].prime replTemp) (List.getElem?_eq_getElem hpl)
          (by simp [hi])
        simp only [List.getElem?_eq_getElem hi, List.getElem?_eq_getElem hpl, ne_eq, hd,
          not_true_eq_false, if_false]
        rw [newDir (hdirT J hJ) q2]
        have hnp : ({ p2[i] with dir := J.dir } : Index) = substTmp is1 is2 J := by
          rw [h, q1]
        rw [hnp]
        refine ⟨p2.set i (substTmp is1 is2 J), ?_, ?_⟩
        · refine ⟨by simpa using hp.1, ?_⟩
          intro k x y hx hy
          by_cases hki : k = i
          · subst hki
            rw [List.getElem?_set_self hpl] at hx
            simp [hi] at hx hy
            subst hx; subst hy
            rw [h]; exact ⟨rfl, hdirT J hJ⟩
          · rw [List.getElem?_set_ne (fun e => hki e.symm)] at hx
            exact hp.2 k x y hx hy
        · congr 2
          have cur : (keys (P.map (substTmp is1 is2) ++ J :: S)).Nodup := by
            have : keys (P.map (substTmp is1 is2) ++ J :: S) =
                keys (P.map (substTmp is1 is2)) ++ (J.key :: keys S) := by simp [keys]
            rw [this, List.nodup_append]
            refine ⟨?_, ndJS, ?_⟩
            · unfold keys
              rw [List.map_map]
              have ndP' : P.Nodup := List.Nodup.of_map _ ndP
              refine List.Nodup.map_on ?_ ndP'
              intro x hx y hy exy
              exact inj x (hP x hx) y (hP y hy) (fact1 x (hP x hx) y (hP y hy) exy)
            · intro a ha b hb eab
              subst eab
              obtain ⟨x', hx', rfl⟩ := List.mem_map.1 ha
              obtain ⟨x, hx, rfl⟩ := List.mem_map.1 hx'
              obtain ⟨y, hy, hyk⟩ : ∃ y ∈ T, y.key = (substTmp is1 is2 x).key ∧
                  y.key ∈ J.key :: keys S := by
                rcases List.mem_cons.1 hb with f | f
                · exact ⟨J, hJ, f.symm, by simp⟩
                · obtain ⟨z, hz, ez⟩ := List.mem_map.1 f
                  exact ⟨z, hS z hz, ez, by rw [ez]; exact List.mem_cons_of_mem _ f⟩
              have := fact2 x (hP x hx) y hy hyk.1.symm
              exact dis x.key (List.mem_map.2 ⟨x, hx, rfl⟩) y.key hyk.2 this
          have knew : (substTmp is1 is2 J).key = (is2[i].prime replTemp).key := by rw [h]; rfl
          have kin : J.key ≠ (is2[i].prime replTemp).key := fun f =>
            htmp is2[i] (List.getElem_mem hi) (by rw [← f]; exact memT J hJ)
          rw [mulDelta_replace (J := J.dag) cur (by simp [keys]) ?_ ?_]
          · rw [List.map_append, List.map_cons, List.map_append]
            simp only [Index.key_dag, if_true, List.map_cons, List.map_nil, List.append_assoc,
              List.singleton_append]
            congr 1
            · rw [List.map_map]
              apply List.map_congr_left
              intro x hx
              simp only [Function.comp]
              exact if_neg (fun f => by
                have := fact2 x (hP x hx) J hJ f
                exact dis x.key (List.mem_map.2 ⟨x, hx, rfl⟩) J.key (by simp) this)
            · congr 1
              conv => rhs; rw [← List.map_id S]
              apply List.map_congr_left
              intro x hx
              exact if_neg (fun f => nJ (by
                rw [← (show x.key = J.key from f)]; exact List.mem_map.2 ⟨x, hx, rfl⟩))
          · intro hm
            rw [show keys (P.map (substTmp is1 is2) ++ J :: S) =
                keys (P.map (substTmp is1 is2)) ++ (J.key :: keys S) by simp [keys]] at hm
            rcases List.mem_append.1 hm with f | f
            · obtain ⟨x', hx', ex⟩ := List.mem_map.1 f
              obtain ⟨x, hx, rfl⟩ := List.mem_map.1 hx'
              have := fact1 x (hP x hx) J hJ ex
              exact dis x.key (List.mem_map.2 ⟨x, hx, rfl⟩) J.key (by simp) this
            · rw [knew] at f
              rcases List.mem_cons.1 f with g | g
              · exact kin g.symm
              · obtain ⟨z, hz, ez⟩ := List.mem_map.1 g
                exact htmp is2[i] (List.getElem_mem hi) (by rw [← ez]; exact memT z (hS z hz))
          · show J.dim = _
            rw [h]; exact hd
  have h0 : SameButDir (is2.map (·.prime replTemp)) (is2.map (·.prime replTemp)) := by
    refine ⟨rfl, ?_⟩
    intro i x y hx hy
    rw [hx] at hy; cases hy
    rw [List.getElem?_map] at hx
    obtain ⟨z, hz, rfl⟩ := Option.map_eq_some_iff.1 hx
    exact ⟨rfl, hdir2 z (List.mem_of_getElem? hz)⟩
  obtain ⟨p2, hp2, hrun⟩ := loop T [] (is2.map (·.prime replTemp)) (by simp) h0
  unfold replaceInds
  rw [show (T, is2.map (·.prime replTemp)) = (([] : IndexSet).map (substTmp is1 is2) ++ T,
    is2.map (·.prime replTemp)) by simp, hrun, Res.bind_ok]
  congr 1
  have kp2 : keys p2 = (is2.map (·.prime replTemp)).map Index.key := hp2.keys_eq
  have ndp2 : (keys p2).Nodup := by
    rw [kp2, List.map_map]
    have nd2 : is2.Nodup := List.Nodup.of_map _ h2
    refine List.Nodup.map_on ?_ nd2
    intro x hx y hy exy
    have := prime_key_inj exy
    obtain ⟨i, hi, rfl⟩ := List.getElem_of_mem hx
    obtain ⟨j, hj, rfl⟩ := List.getElem_of_mem hy
    have := nodup_inj h2 i j hi hj this; subst this; rfl
  apply List.ext_getElem?
  intro j
  unfold prime modifyMatch
  rw [foldl_modify_nodup _ _ (positions_nodup ndp2)]
  rw [List.getElem?_map, List.getElem?_map]
  by_cases hj : j < T.length
  · rw [List.getElem?_eq_getElem hj]
    have hjT := List.getElem_mem hj
    have hpos : j ∈ indexPositions (T.map (substTmp is1 is2)) p2 ↔
        (substTmp is1 is2 T[j]).key ∈ keys p2 := by
      unfold indexPositions
      rw [List.mem_filterMap]
      constructor
      · rintro ⟨x, hx, hxe⟩
        obtain ⟨_, q2, _⟩ := findIdx?_first hxe
        rw [List.getElem_map] at q2
        rw [Index.eq_iff.1 q2]; exact List.mem_map.2 ⟨x, hx, rfl⟩
      · intro hm
        obtain ⟨x, hx, hxk⟩ := List.mem_map.1 hm
        refine ⟨x, hx, ?_⟩
        unfold indexPosition
        have : ((T.map (substTmp is1 is2)).findIdx? (·.eq x)).isSome := by
          rw [List.findIdx?_isSome, List.any_eq_true]
          exact ⟨_, List.mem_map.2 ⟨T[j], hjT, rfl⟩, Index.eq_iff.2 hxk.symm⟩
        obtain ⟨k, hk⟩ := Option.isSome_iff_exists.1 this
        obtain ⟨q1, q2, _⟩ := findIdx?_first hk
        rw [List.getElem_map] at q2
        have hkT : k < T.length := by simpa using q1
        have e1 := (Index.eq_iff.1 q2).trans hxk
        have e2 := fact1 _ (List.getElem_mem hkT) _ hjT e1
        have := nodup_inj hT k j hkT hj e2
        rw [hk, this]
    rcases hst T[j] hjT with ⟨h, h', _⟩ | ⟨i, hi, _, _, h, h'⟩
    · rw [if_neg]
      · simp [h, h']
      · rw [hpos, h, kp2, List.map_map]
        intro hm
        obtain ⟨z, hz, ez⟩ := List.mem_map.1 hm
        exact htmp z hz (by rw [show (z.prime replTemp).key = T[j].key from ez]; exact memT _ hjT)
    · rw [if_pos]
      · simp only [Option.map_some, h, h']
        congr 1
        cases hx : is2[i] with
        | mk id dim dir tags qns =>
          cases tags with
          | mk a b c =>
            have : b + replTemp + -replTemp = b := by omega
            simp [Index.prime, TagSet.prime, this]
      · rw [hpos, h, kp2, List.map_map, kd]
        exact List.mem_map.2 ⟨is2[i], List.getElem_mem hi, rfl⟩
  · rw [List.getElem?_eq_none (by omega)]; simp

/-- **C13.** `swapInds` exchanges two disjoint lists of indices. -/
theorem C13_swapInds (T is1 is2 : IndexSet) (hT : (keys T).Nodup)
    (h12 : (keys (is2 ++ is1)).Nodup) (hlen : is1.length = is2.length)
    (hdirT : ∀ j ∈ T, j.dir = 1 ∨ j.dir = -1) (hdir : ∀ j ∈ is2 ++ is1, j.dir = 1 ∨ j.dir = -1)
    (htmp : ∀ j ∈ is2 ++ is1, (j.prime replTemp).key ∉ keys T)
    (hdim : ∀ i (h : i < (is1 ++ is2).length), ∀ j ∈ T, j.key = (is1 ++ is2)[i].key →
      j.dim = ((is2 ++ is1)[i]'(by simp at h ⊢; omega)).dim) (k : Nat) (hk : k < is1.length)
    (h1n : is1[k].nonNull = true) (h2n : (is2[k]'(by omega)).nonNull = true) :
    ∃ T', swapInds T is1 is2 = .ok T' ∧ T'.length = T.length ∧
      ∀ j (hj : j < T.length), ∃ x, T'[j]? = some x ∧
        (T[j].key = is1[k].key → x.key = (is2[k]'(by omega)).key) ∧
        (T[j].key = (is2[k]'(by omega)).key → x.key = is1[k].key) ∧
        (T[j].key ∉ keys is1 → T[j].key ∉ keys is2 → x = T[j]) := by
  refine ⟨_, C13_replaceInds T (is1 ++ is2) (is2 ++ is1) hT h12 (by simp; omega) hdirT hdir htmp hdim,
    by simp, ?_⟩
  intro j hj
  refine ⟨substIdx (is1 ++ is2) (is2 ++ is1) T[j], by simp [hj], ?_⟩
  have h21 : (keys (is1 ++ is2)).Nodup := by
    have : (keys (is1 ++ is2)).Perm (keys (is2 ++ is1)) := by
      unfold keys; exact List.perm_append_comm.map _
    exact this.nodup_iff.2 h12
  have key : ∀ i (hi : i < (is1 ++ is2).length), (is1 ++ is2)[i].nonNull = true →
      T[j].key = (is1 ++ is2)[i].key →
      (substIdx (is1 ++ is2) (is2 ++ is1) T[j]).key
        = ((is2 ++ is1)[i]'(by simp at hi ⊢; omega)).key := by
    intro i hi hn e
    have hi' : i < (is2 ++ is1).length := by simp at hi ⊢; omega
    unfold substIdx
    have : ((is1 ++ is2).findIdx? (fun x => x.nonNull && T[j].eq x)).isSome := by
      rw [List.findIdx?_isSome, List.any_eq_true]
      exact ⟨_, List.getElem_mem hi, by rw [hn, Index.eq_iff.2 e]; rfl⟩
    obtain ⟨m, hm⟩ := Option.isSome_iff_exists.1 this
    obtain ⟨q1, q2, _⟩ := findIdx?_first hm
    rw [Bool.and_eq_true] at q2
    have := nodup_inj h21 m i q1 hi (by rw [← Index.eq_iff.1 q2.2, e])
    subst this
    rw [hm]
    simp only [List.getElem?_eq_getElem hi']
    rfl
  refine ⟨?_, ?_, ?_⟩
  · intro e
    have := key k (by simp; omega) (by rw [List.getElem_append_left hk]; exact h1n)
      (by rw [List.getElem_append_left hk]; exact e)
    rw [this, List.getElem_append_left (by omega)]
  · intro e
    have := key (is1.length + k) (by simp; omega)
      (by rw [List.getElem_append_right (by omega)]; simpa using h2n)
      (by rw [List.getElem_append_right (by omega)]; simpa using e)
    rw [this, List.getElem_append_right (by omega)]
    simp [hlen]
  · intro n1 n2
    unfold substIdx
    have : (is1 ++ is2).findIdx? (fun x => x.nonNull && T[j].eq x) = none := by
      rw [List.findIdx?_eq_none_iff]
      intro x hx
      rw [Bool.eq_false_iff]
      intro h
      rw [Bool.and_eq_true] at h
      have e := Index.eq_iff.1 h.2
      rcases List.mem_append.1 hx with f | f
      · exact n1 (by rw [e]; exact List.mem_map.2 ⟨x, f, rfl⟩)
      · exact n2 (by rw [e]; exact List.mem_map.2 ⟨x, f, rfl⟩)
    rw [this]

/-! ## Concrete cases -/

/-- Index with the given id and dimension, no tags, prime level 0. -/
def mkI (id dim : Nat) : Index := ⟨id, dim, 1, ⟨[Tag.empty, Tag.empty, Tag.empty, Tag.empty], 0, 0⟩, []⟩

/-- A cyclic replacement i→j→k→i on a tensor with indices (i,j,k). -/
example : replaceInds [mkI 1 2, mkI 2 2, mkI 3 2] [mkI 1 2, mkI 2 2, mkI 3 2]
    [mkI 2 2, mkI 3 2, mkI 1 2] = .ok [mkI 2 2, mkI 3 2, mkI 1 2] := by decide

/-- Labels for `(i,j) * (j,k)`. -/
example : computeLabels [mkI 1 2, mkI 2 2] [mkI 2 2, mkI 3 2] = ([2, -1], [-1, 3], 1) := by decide

example : (keys [mkI 1 2, mkI 2 2]).Nodup ∧ (keys [mkI 2 2, mkI 3 2]).Nodup := by decide

example : swapPrime 0 1 [mkI 1 2, (mkI 1 2).prime 1, (mkI 2 2).prime 2] .all
    = [(mkI 1 2).prime 1, mkI 1 2, (mkI 2 2).prime 2] := by decide

end IndexSet
end Verif.Index
