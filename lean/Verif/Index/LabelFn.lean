import Verif.Index.Props
import Verif.Tensor.ContractLayout

/-!
# The labels of a product as a function of the index

`computeContractionLabels` gives equal indices equal labels, so the labels are a function of the
identity (`Index.key`) of the index.
-/

namespace Verif.Index.IndexSet

open Verif.Tensor

abbrev Key := Nat × Int × Nat × List Verif.TagSet.Tag

theorem exists_lab (L R : IndexSet) (hL : (keys L).Nodup) (hR : (keys R).Nodup) :
    ∃ lab : Key → Int, (computeLabels L R).1 = (keys L).map lab ∧
      (computeLabels L R).2.1 = (keys R).map lab ∧
      (∀ k k', (k ∈ keys L ∨ k ∈ keys R) → (k' ∈ keys L ∨ k' ∈ keys R) → lab k = lab k' → k = k') ∧
      ∀ k, (k ∈ keys L ∨ k ∈ keys R) → lab k ≠ 0 ∧ (lab k < 0 ↔ k ∈ keys L ∧ k ∈ keys R) := by
  obtain ⟨l1, l2, h1, h2, h3, n1, n2⟩ := C12_labels L R hL hR
  generalize hA : (computeLabels L R).1 = A at *
  generalize hB : (computeLabels L R).2.1 = B at *
  have kL : (keys L).length = L.length := by simp [keys]
  have kR : (keys R).length = R.length := by simp [keys]
  let lab : Key → Int := fun k =>
    if k ∈ keys L then A.getD ((keys L).idxOf k) 0 else B.getD ((keys R).idxOf k) 0
  have labL : ∀ i (hi : i < L.length), A[i]? = some (lab L[i].key) := by
    intro i hi
    have hk : L[i].key = (keys L)[i]'(by omega) := by simp [keys]
    have hm : L[i].key ∈ keys L := by rw [hk]; exact List.getElem_mem _
    have : lab L[i].key = A.getD i 0 := by
      simp only [lab, if_pos hm]
      congr 1
      rw [hk]
      exact hL.idxOf_getElem i (by omega)
    rw [this, List.getElem?_eq_getElem (by omega)]
    simp [List.getD_eq_getElem?_getD, l1, hi]
  have labR : ∀ j (hj : j < R.length), B[j]? = some (lab R[j].key) := by
    intro j hj
    have hk : R[j].key = (keys R)[j]'(by omega) := by simp [keys]
    by_cases hm : R[j].key ∈ keys L
    · obtain ⟨i, hi, e⟩ := List.mem_iff_getElem.1 hm
      have hi' : i < L.length := by omega
      have e' : L[i].key = R[j].key := by simpa [keys] using e
      rw [← (h3 i hi' j hj).2 e', labL i hi', e']
    · have : lab R[j].key = B.getD j 0 := by
        simp only [lab, if_neg hm]
        congr 1
        rw [hk]
        exact hR.idxOf_getElem j (by omega)
      rw [this, List.getElem?_eq_getElem (by omega)]
      simp [List.getD_eq_getElem?_getD, l2, hj]
  have getL : ∀ k ∈ keys L, ∃ i, ∃ hi : i < L.length, L[i].key = k := by
    intro k hk
    obtain ⟨i, hi, e⟩ := List.mem_iff_getElem.1 hk
    exact ⟨i, by omega, by simpa [keys] using e⟩
  have getR : ∀ k ∈ keys R, ∃ i, ∃ hi : i < R.length, R[i].key = k := by
    intro k hk
    obtain ⟨i, hi, e⟩ := List.mem_iff_getElem.1 hk
    exact ⟨i, by omega, by simpa [keys] using e⟩
  refine ⟨lab, ?_, ?_, ?_, ?_⟩
  · apply List.ext_getElem? 
    intro i
    by_cases hi : i < L.length
    · rw [labL i hi]
      simp [keys, List.getElem?_map, List.getElem?_eq_getElem hi]
    · rw [List.getElem?_eq_none (by omega), List.getElem?_eq_none (by simp; omega)]
  · apply List.ext_getElem?
    intro i
    by_cases hi : i < R.length
    · rw [labR i hi]
      simp [keys, List.getElem?_map, List.getElem?_eq_getElem hi]
    · rw [List.getElem?_eq_none (by omega), List.getElem?_eq_none (by simp; omega)]
  · have LR : ∀ k k', k ∈ keys L → k' ∈ keys R → lab k = lab k' → k = k' := by
      intro k k' hk hk' e
      obtain ⟨i, hi, rfl⟩ := getL k hk
      obtain ⟨j, hj, rfl⟩ := getR k' hk'
      exact (h3 i hi j hj).1 (by rw [labL i hi, labR j hj, e])
    rintro k k' (hk | hk) (hk' | hk') e
    · obtain ⟨i, hi, rfl⟩ := getL k hk
      obtain ⟨j, hj, rfl⟩ := getL k' hk'
      have : A[i]? = A[j]? := by rw [labL i hi, labL j hj, e]
      have hij := (n1.getElem_inj_iff (i := i) (j := j) (hi := by omega) (hj := by omega)).1 (by
        rw [List.getElem?_eq_getElem (by omega), List.getElem?_eq_getElem (by omega)] at this
        exact Option.some.inj this)
      subst hij; rfl
    · exact LR k k' hk hk' e
    · exact (LR k' k hk' hk e.symm).symm
    · obtain ⟨i, hi, rfl⟩ := getR k hk
      obtain ⟨j, hj, rfl⟩ := getR k' hk'
      have : B[i]? = B[j]? := by rw [labR i hi, labR j hj, e]
      have hij := (n2.getElem_inj_iff (i := i) (j := j) (hi := by omega) (hj := by omega)).1 (by
        rw [List.getElem?_eq_getElem (by omega), List.getElem?_eq_getElem (by omega)] at this
        exact Option.some.inj this)
      subst hij; rfl
  · rintro k (hk | hk)
    · obtain ⟨i, hi, rfl⟩ := getL k hk
      obtain ⟨a, e, hn, hlt⟩ := h1 i hi
      rw [labL i hi] at e; cases e
      exact ⟨hn, by rw [hlt]; simp [hk]⟩
    · obtain ⟨i, hi, rfl⟩ := getR k hk
      obtain ⟨a, e, hn, hlt⟩ := h2 i hi
      rw [labR i hi] at e; cases e
      exact ⟨hn, by rw [hlt]; simp [hk]⟩

/-- Operands which both have, or both do not have, quantum numbers. -/
theorem prodInds_lab {L R : IndexSet} (hq : hasQNs L = hasQNs R) {lab : Key → Int}
    (hA : (computeLabels L R).1 = (keys L).map lab) (hB : (computeLabels L R).2.1 = (keys R).map lab)
    (hs : ∀ k, (k ∈ keys L ∨ k ∈ keys R) → lab k ≠ 0 ∧ (lab k < 0 ↔ k ∈ keys L ∧ k ∈ keys R)) :
    prodInds L R = (L.filter (fun i => i.key ∉ keys R) ++ R.filter (fun i => i.key ∉ keys L)).map
      fun i => (i, lab i.key) := by
  unfold prodInds contractIS
  simp only [hA, hB]
  have zz : ∀ (X : IndexSet), X.zip ((keys X).map lab) = X.map fun i => (i, lab i.key) := by
    intro X
    induction X with
    | nil => rfl
    | cons x X ih => simp only [keys, List.map_cons, List.zip_cons_cons] at ih ⊢; rw [ih]
  rw [zz, zz, List.map_append]
  congr 1
  · rw [List.filter_map, List.map_map]
    have : L.filter ((fun x : Index × Int => decide (x.2 > 0)) ∘ fun i => (i, lab i.key)) =
        L.filter (fun i => decide (i.key ∉ keys R)) := by
      apply List.filter_congr
      intro i hi
      have hk : i.key ∈ keys L := List.mem_map_of_mem hi
      have := hs i.key (Or.inl hk)
      simp only [Function.comp, decide_eq_decide]
      constructor
      · intro h hr; have := this.2.2 ⟨hk, hr⟩; omega
      · intro h
        have h2 : ¬ lab i.key < 0 := fun h' => h (this.2.1 h').2
        have := this.1; omega
    rw [this]
    apply List.map_congr_left
    intro i _
    simp only [Function.comp, hq]
    cases hasQNs R <;> simp
  · rw [List.filter_map, List.map_map]
    have : R.filter ((fun x : Index × Int => decide (x.2 > 0)) ∘ fun i => (i, lab i.key)) =
        R.filter (fun i => decide (i.key ∉ keys L)) := by
      apply List.filter_congr
      intro i hi
      have hk : i.key ∈ keys R := List.mem_map_of_mem hi
      have := hs i.key (Or.inr hk)
      simp only [Function.comp, decide_eq_decide]
      constructor
      · intro h hr; have := this.2.2 ⟨hr, hk⟩; omega
      · intro h
        have h2 : ¬ lab i.key < 0 := fun h' => h (this.2.1 h').1
        have := this.1; omega
    rw [this]
    apply List.map_congr_left
    intro i _
    simp only [Function.comp, hq]
    cases hasQNs R <;> simp

/-- The labels of a product meet the conditions of the dense contraction. -/
theorem labelsOK_prod {L R : IndexSet} (hL : (keys L).Nodup) (hR : (keys R).Nodup) {lab : Key → Int}
    (hinj : ∀ k k', (k ∈ keys L ∨ k ∈ keys R) → (k' ∈ keys L ∨ k' ∈ keys R) → lab k = lab k' → k = k') :
    let ai := (keys L).map lab
    let bi := (keys R).map lab
    let ci := (L.filter (fun i => i.key ∉ keys R) ++ R.filter (fun i => i.key ∉ keys L)).map
      fun i => lab i.key
    LabelsOK ai bi ci ∧ ci = ai.filter (· ∈ ci) ++ bi.filter (· ∈ ci) ∧
      ai.filter (· ∈ bi) = ((keys L).filter (· ∈ keys R)).map lab := by
  intro ai bi ci
  have ma : ∀ k, (k ∈ keys L ∨ k ∈ keys R) → (lab k ∈ ai ↔ k ∈ keys L) := by
    intro k hk
    constructor
    · intro h
      obtain ⟨k', h1, h2⟩ := List.mem_map.1 h
      rw [← hinj k' k (Or.inl h1) hk h2]; exact h1
    · intro h; exact List.mem_map_of_mem h
  have mb : ∀ k, (k ∈ keys L ∨ k ∈ keys R) → (lab k ∈ bi ↔ k ∈ keys R) := by
    intro k hk
    constructor
    · intro h
      obtain ⟨k', h1, h2⟩ := List.mem_map.1 h
      rw [← hinj k' k (Or.inr h1) hk h2]; exact h1
    · intro h; exact List.mem_map_of_mem h
  have mc0 : ∀ x, x ∈ ci ↔ ∃ k, lab k = x ∧ ((k ∈ keys L ∧ k ∉ keys R) ∨ (k ∈ keys R ∧ k ∉ keys L)) := by
    intro x
    simp only [ci, List.mem_map, List.mem_append, List.mem_filter, decide_eq_true_eq]
    constructor
    · rintro ⟨i, h | h, rfl⟩
      · exact ⟨i.key, rfl, Or.inl ⟨List.mem_map_of_mem h.1, h.2⟩⟩
      · exact ⟨i.key, rfl, Or.inr ⟨List.mem_map_of_mem h.1, h.2⟩⟩
    · rintro ⟨k, rfl, ⟨h1, h2⟩ | ⟨h1, h2⟩⟩
      · obtain ⟨i, hi, rfl⟩ := List.mem_map.1 h1; exact ⟨i, Or.inl ⟨hi, h2⟩, rfl⟩
      · obtain ⟨i, hi, rfl⟩ := List.mem_map.1 h1; exact ⟨i, Or.inr ⟨hi, h2⟩, rfl⟩
  have mc : ∀ k, (k ∈ keys L ∨ k ∈ keys R) → (lab k ∈ ci ↔ (k ∈ keys L ∧ k ∉ keys R) ∨ (k ∈ keys R ∧ k ∉ keys L)) := by
    intro k hk
    rw [mc0]
    constructor
    · rintro ⟨k', e, h⟩
      have hk' : k' ∈ keys L ∨ k' ∈ keys R := by tauto
      rw [← hinj k' k hk' hk e]; exact h
    · intro h; exact ⟨k, rfl, h⟩
  have cL : ci = ((keys L).filter (· ∉ keys R)).map lab ++ ((keys R).filter (· ∉ keys L)).map lab := by
    simp only [ci, keys, List.map_append, List.filter_map, List.map_map]
    rfl
  have hndL : ai.Nodup := hL.map_on fun k hk k' hk' e => hinj k k' (Or.inl hk) (Or.inl hk') e
  have hndR : bi.Nodup := hR.map_on fun k hk k' hk' e => hinj k k' (Or.inr hk) (Or.inr hk') e
  have fa : ai.filter (· ∈ ci) = ((keys L).filter (· ∉ keys R)).map lab := by
    simp only [ai, List.filter_map]
    congr 1
    apply List.filter_congr
    intro k hk
    simp only [Function.comp, decide_eq_decide, mc k (Or.inl hk)]
    tauto
  have fb : bi.filter (· ∈ ci) = ((keys R).filter (· ∉ keys L)).map lab := by
    simp only [bi, List.filter_map]
    congr 1
    apply List.filter_congr
    intro k hk
    simp only [Function.comp, decide_eq_decide, mc k (Or.inr hk)]
    tauto
  have hord : ci = ai.filter (· ∈ ci) ++ bi.filter (· ∈ ci) := by rw [fa, fb]; exact cL
  refine ⟨⟨hndL, hndR, ?_, ?_, ?_, ?_⟩, hord, ?_⟩
  · rw [hord, List.nodup_append]
    refine ⟨hndL.filter _, hndR.filter _, ?_⟩
    intro a ha b hb e
    rw [fa] at ha
    rw [fb] at hb
    obtain ⟨k, h1, rfl⟩ := List.mem_map.1 ha
    obtain ⟨k', h1', e'⟩ := List.mem_map.1 hb
    obtain ⟨h2, h3⟩ := List.mem_filter.1 h1
    obtain ⟨h2', h3'⟩ := List.mem_filter.1 h1'
    have := hinj k k' (Or.inl h2) (Or.inr h2') (by rw [e, e'])
    subst this
    simp [h2'] at h3
  · intro x hx
    obtain ⟨k, hk, rfl⟩ := List.mem_map.1 hx
    rw [mb k (Or.inl hk), mc k (Or.inl hk)]
    tauto
  · intro x hx
    obtain ⟨k, hk, rfl⟩ := List.mem_map.1 hx
    rw [ma k (Or.inr hk), mc k (Or.inr hk)]
    tauto
  · intro x hx
    obtain ⟨k, rfl, h⟩ := (mc0 x).1 hx
    have hk : k ∈ keys L ∨ k ∈ keys R := by tauto
    rw [ma k hk, mb k hk]
    tauto
  · simp only [ai, List.filter_map]
    congr 1
    apply List.filter_congr
    intro k hk
    simp only [Function.comp, decide_eq_decide, mb k (Or.inl hk)]

end Verif.Index.IndexSet
