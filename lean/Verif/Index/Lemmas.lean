import Verif.Index.Model
import Mathlib.Data.List.Nodup
import Mathlib.Data.List.Perm.Subperm

/-! # Helper lemmas for indices and index sets -/

namespace Verif.Index

open Verif.TagSet (Tag TagSet)

/-- What `==` compares. -/
def Index.key (i : Index) : Nat × Int × Nat × List Tag :=
  (i.id, i.tags.plev, i.tags.size, i.tags.live)

theorem Index.eq_iff {i j : Index} : i.eq j = true ↔ i.key = j.key := by
  unfold Index.eq TagSet.eq Index.key
  rw [Bool.and_eq_true, beq_iff_eq]
  by_cases h1 : i.tags.plev = j.tags.plev
  · by_cases h2 : i.tags.size = j.tags.size
    · simp [h1, h2]
    · simp [h1, h2]
  · simp [h1]

theorem Index.eq_refl (i : Index) : i.eq i = true := Index.eq_iff.2 rfl

@[simp] theorem Index.key_dag (i : Index) : i.dag.key = i.key := rfl
@[simp] theorem Index.key_removeQNs (i : Index) : i.removeQNs.key = i.key := rfl

namespace IndexSet

/-- The indices of a set, up to `==`. -/
def keys (is : IndexSet) : List (Nat × Int × Nat × List Tag) := is.map Index.key

theorem hasIndex_iff {is : IndexSet} {i : Index} : hasIndex is i = true ↔ i.key ∈ keys is := by
  unfold hasIndex keys
  simp only [List.any_eq_true, List.mem_map, Index.eq_iff]

theorem hasIndex_eq (is : IndexSet) (i : Index) : hasIndex is i = decide (i.key ∈ keys is) := by
  rw [Bool.eq_iff_iff, hasIndex_iff]; simp

theorem keys_filter (a : IndexSet) (p : (Nat × Int × Nat × List Tag) → Bool) :
    keys (a.filter fun i => p i.key) = (keys a).filter p := by
  unfold keys; rw [List.filter_map]; rfl

theorem keys_common (a b : IndexSet) :
    keys (commonInds a b) = (keys a).filter (fun k => decide (k ∈ keys b)) := by
  rw [← keys_filter]; unfold commonInds; simp only [← hasIndex_eq]

theorem keys_unique (a b : IndexSet) :
    keys (uniqueInds a b) = (keys a).filter (fun k => !decide (k ∈ keys b)) := by
  rw [← keys_filter]; unfold uniqueInds; simp only [← hasIndex_eq]

theorem keys_union (a b : IndexSet) :
    keys (unionInds a b) = keys a ++ (keys b).filter (fun k => !decide (k ∈ keys a)) := by
  unfold unionInds
  have : keys (a ++ b.filter fun i => !hasIndex a i) = keys a ++ keys (uniqueInds b a) := by
    simp [keys, uniqueInds]
  rw [this, keys_unique]

/-! ### modifyMatch -/

theorem findIdx?_first {α} {p : α → Bool} {l : List α} {k : Nat} (h : l.findIdx? p = some k) :
    ∃ hk : k < l.length, p l[k] = true ∧ ∀ j (hj : j < k), p (l[j]'(by omega)) = false := by
  rw [List.findIdx?_eq_some_iff_getElem] at h
  obtain ⟨h1, h2, h3⟩ := h
  exact ⟨h1, h2, fun j hj => by simpa using h3 j hj⟩

theorem foldl_modify_getElem? {α} (f : α → α) (hf : ∀ x, f (f x) = f x) (ks : List Nat) :
    ∀ (l : List α) (j : Nat), (ks.foldl (fun s k => s.modify k f) l)[j]? =
      if j ∈ ks then l[j]?.map f else l[j]? := by
  induction ks with
  | nil => simp
  | cons k ks ih =>
    intro l j
    rw [List.foldl_cons, ih, List.getElem?_modify]
    by_cases hk : k = j
    · subst hk
      simp only [if_true, List.mem_cons, true_or]
      split
      · cases l[k]? with
        | none => rfl
        | some x => simp [hf]
      · rfl
    · have : ¬ j = k := fun e => hk e.symm
      simp [hk, this]

/-- `mapPrime` with an `IndexSet` argument acts pointwise as long as equal indices of the affected
prime level do not repeat. -/
theorem mapPrime_inds (old new : Int) (is m : IndexSet)
    (hn : ∀ (j k : Nat) (hj : j < is.length) (hk : k < is.length), is[j].plev = old →
      is[j].key = is[k].key → j = k) :
    mapPrime old new is (.inds m) =
      is.map fun j => if j.plev = old ∧ j.key ∈ keys m then j.setPrime new else j := by
  apply List.ext_getElem?
  intro j
  unfold mapPrime modifyMatch
  rw [foldl_modify_getElem?]
  · rw [List.getElem?_map]
    by_cases hj : j < is.length
    · rw [List.getElem?_eq_getElem hj]
      by_cases hp : is[j].plev = old
      · have : j ∈ indexPositions is m ↔ is[j].key ∈ keys m := by
          unfold indexPositions keys
          rw [List.mem_filterMap, List.mem_map]
          constructor
          · rintro ⟨x, hx, he⟩
            obtain ⟨_, h2, _⟩ := findIdx?_first he
            exact ⟨x, hx, (Index.eq_iff.1 h2).symm⟩
          · rintro ⟨x, hx, he⟩
            refine ⟨x, hx, ?_⟩
            unfold indexPosition
            have : (is.findIdx? (·.eq x)).isSome := by
              rw [List.findIdx?_isSome, List.any_eq_true]
              exact ⟨is[j], List.getElem_mem hj, Index.eq_iff.2 he.symm⟩
            obtain ⟨k, hk⟩ := Option.isSome_iff_exists.1 this
            obtain ⟨h1, h2, _⟩ := findIdx?_first hk
            have := hn j k hj h1 hp (by rw [Index.eq_iff.1 h2, he])
            rw [hk, this]
        by_cases hm : is[j].key ∈ keys m
        · rw [if_pos (this.2 hm)]; simp [hp, hm]
        · rw [if_neg (fun h => hm (this.1 h))]; simp [hp, hm]
      · split <;> simp [hp]
    · rw [List.getElem?_eq_none (by omega)]; simp
  · intro x
    by_cases h : x.plev = old
    · by_cases h2 : (x.setPrime new).plev = old
      · simp [h, h2]; rfl
      · simp [h, h2]
    · simp [h]

/-! ### labels -/

theorem contLoop_length (R : IndexSet) : ∀ (L : IndexSet) (Rind : List Int) (n : Nat),
    (contLoop R L Rind n).1.length = L.length ∧
      (contLoop R L Rind n).2.1.length = Rind.length := by
  intro L
  induction L with
  | nil => intro Rind n; simp [contLoop]
  | cons l L ih =>
    intro Rind n
    unfold contLoop
    split
    · simp [ih]
    · simp [ih]

/-- Invariant of the first loop. -/
theorem contLoop_spec (R : IndexSet) : ∀ (L : IndexSet) (Rind : List Int) (n : Nat),
    (keys L).Nodup → Rind.length = R.length →
    let A := (contLoop R L Rind n).1
    let B := (contLoop R L Rind n).2.1
    let c := (contLoop R L Rind n).2.2
    n ≤ c ∧
    (∀ i (hi : i < L.length), ∃ a, A[i]? = some a ∧
      (L[i].key ∉ keys R → a = 0) ∧
      (L[i].key ∈ keys R → -(c : Int) ≤ a ∧ a ≤ -(n + 1 : Int))) ∧
    (∀ (i j : Nat) (a : Int), A[i]? = some a → A[j]? = some a → a ≠ 0 → i = j) ∧
    (∀ j (hj : j < R.length), R[j].key ∉ keys L → B[j]? = Rind[j]?) ∧
    (∀ i (hi : i < L.length) j (hj : j < R.length), L[i].key = R[j].key →
      (∀ j' (_ : j' < j), R[j'].key ≠ R[j].key) → B[j]? = A[i]?) := by
  intro L
  induction L with
  | nil =>
    intro Rind n _ hR
    simp [contLoop]
  | cons l L ih =>
    intro Rind n hnd hR
    have hnd' : l.key ∉ keys L ∧ (keys L).Nodup := by simpa [keys] using hnd
    unfold contLoop
    cases hf : R.findIdx? (l.eq ·) with
    | none =>
      have hnot : l.key ∉ keys R := by
        rw [List.findIdx?_eq_none_iff] at hf
        intro hm
        obtain ⟨r, hr, e⟩ := List.mem_map.1 hm
        have := hf r hr
        rw [Index.eq_iff.2 e.symm] at this; cases this
      obtain ⟨h1, h2, h3, h4, h5⟩ := ih Rind n hnd'.2 hR
      refine ⟨h1, ?_, ?_, ?_, ?_⟩
      · intro i hi
        cases i with
        | zero => exact ⟨0, rfl, fun _ => rfl, fun h => absurd h hnot⟩
        | succ i => exact h2 i (by simpa using hi)
      · intro i j a hi hj ha
        cases i with
        | zero => simp at hi; exact absurd hi.symm ha
        | succ i =>
          cases j with
          | zero => simp at hj; exact absurd hj.symm ha
          | succ j => rw [h3 i j a (by simpa using hi) (by simpa using hj) ha]
      · intro j hj hk
        exact h4 j hj (fun h => hk (by simp [keys] at h ⊢; exact Or.inr h))
      · intro i hi j hj e hmin
        cases i with
        | zero =>
          exact absurd (List.mem_map.2 ⟨R[j], List.getElem_mem hj, e.symm⟩) hnot
        | succ i => exact h5 i (by simpa using hi) j hj e hmin
    | some j0 =>
      obtain ⟨hj0, hp, hmin0⟩ := findIdx?_first hf
      have hp' := Index.eq_iff.1 hp
      obtain ⟨h1, h2, h3, h4, h5⟩ := ih (Rind.set j0 (-(1 + (n : Int)))) (n + 1) hnd'.2 (by simp [hR])
      have hmem : l.key ∈ keys R := List.mem_map.2 ⟨R[j0], List.getElem_mem hj0, hp'.symm⟩
      have hlen := (contLoop_length R L (Rind.set j0 (-(1 + (n : Int)))) (n + 1)).1
      refine ⟨Nat.le_of_succ_le h1, ?_, ?_, ?_, ?_⟩
      · intro i hi
        cases i with
        | zero =>
          refine ⟨_, rfl, fun h => absurd hmem h, fun _ => ⟨?_, by omega⟩⟩
          show -(((contLoop R L _ (n + 1)).2.2 : Nat) : Int) ≤ _
          omega
        | succ i =>
          obtain ⟨a, ha1, ha2, ha3⟩ := h2 i (by simpa using hi)
          refine ⟨a, ha1, ha2, fun h => ?_⟩
          have := ha3 h; push_cast at this ⊢; omega
      · have hrange : ∀ (i : Nat) (a : Int), (contLoop R L (Rind.set j0 (-(1 + (n : Int)))) (n + 1)).1[i]? = some a →
            a ≠ 0 → a ≤ -((n : Int) + 2) := by
          intro i a hi ha
          have hi' : i < L.length := by
            rw [← hlen]; exact (List.getElem?_eq_some_iff.1 hi).1
          obtain ⟨a', ha1, ha2, ha3⟩ := h2 i hi'
          rw [hi] at ha1; cases ha1
          by_cases hk : L[i].key ∈ keys R
          · have := (ha3 hk).2; push_cast at this; omega
          · exact absurd (ha2 hk) ha
        intro i j a hi hj ha
        cases i with
        | zero =>
          cases j with
          | zero => rfl
          | succ j =>
            simp at hi hj
            have := hrange j a hj ha
            omega
        | succ i =>
          cases j with
          | zero =>
            simp at hi hj
            have := hrange i a hi ha
            omega
          | succ j => rw [h3 i j a (by simpa using hi) (by simpa using hj) ha]
      · intro j hj hk
        have hk' : R[j].key ≠ l.key ∧ R[j].key ∉ keys L := by
          simpa [keys] using hk
        have := h4 j hj hk'.2
        show (contLoop R L _ (n + 1)).2.1[j]? = _
        rw [this, List.getElem?_set_ne]
        rintro rfl; exact hk'.1 hp'.symm
      · intro i hi j hj e hmin
        cases i with
        | zero =>
          have e' : l.key = R[j].key := e
          have : j = j0 := by
            rcases Nat.lt_trichotomy j j0 with h | h | h
            · have := hmin0 j h
              rw [Index.eq_iff.2 e'] at this; cases this
            · exact h
            · exact absurd (by rw [← hp', e']) (hmin j0 h)
          subst this
          have := h4 j hj (by rw [← e']; exact hnd'.1)
          show (contLoop R L _ (n + 1)).2.1[j]? = _
          rw [this, List.getElem?_set_self (by omega)]; rfl
        | succ i => exact h5 i (by simpa using hi) j hj e hmin

theorem fillLoop_spec : ∀ (xs : List Int) (u : Nat),
    (fillLoop xs u).1.length = xs.length ∧ u ≤ (fillLoop xs u).2 ∧
    (∀ (i : Nat) (x : Int), xs[i]? = some x → ∃ y, (fillLoop xs u).1[i]? = some y ∧
      (x ≠ 0 → y = x) ∧ (x = 0 → (u : Int) < y ∧ y ≤ (fillLoop xs u).2)) ∧
    (∀ (i j : Nat) (y : Int), xs[i]? = some 0 → xs[j]? = some 0 → (fillLoop xs u).1[i]? = some y →
      (fillLoop xs u).1[j]? = some y → i = j) := by
  intro xs
  induction xs with
  | nil => intro u; simp [fillLoop]
  | cons x xs ih =>
    intro u
    unfold fillLoop
    by_cases hx : x = 0
    · simp only [hx, if_true]
      obtain ⟨h1, h2, h3, h4⟩ := ih (u + 1)
      refine ⟨by simp [h1], by omega, ?_, ?_⟩
      · intro i y hi
        cases i with
        | zero =>
          simp at hi
          exact ⟨_, rfl, fun h => absurd hi.symm h, fun _ => ⟨by push_cast; omega, by push_cast; omega⟩⟩
        | succ i =>
          obtain ⟨z, z1, z2, z3⟩ := h3 i y (by simpa using hi)
          refine ⟨z, z1, z2, fun h => ?_⟩
          have := z3 h; push_cast at this; omega
      · have hr : ∀ (i : Nat) (y : Int), xs[i]? = some 0 → (fillLoop xs (u + 1)).1[i]? = some y → ((u + 1 : Nat) : Int) < y := by
          intro i y hi hy
          obtain ⟨z, z1, _, z3⟩ := h3 i 0 hi
          rw [hy] at z1; cases z1; exact (z3 rfl).1
        intro i j y hi hj hyi hyj
        cases i with
        | zero =>
          cases j with
          | zero => rfl
          | succ j =>
            have := hr j y (by simpa using hj) (by simpa using hyj)
            simp at hyi; omega
        | succ i =>
          cases j with
          | zero =>
            have := hr i y (by simpa using hi) (by simpa using hyi)
            simp at hyj; omega
          | succ j => rw [h4 i j y (by simpa using hi) (by simpa using hj) (by simpa using hyi) (by simpa using hyj)]
    · simp only [hx, if_false]
      obtain ⟨h1, h2, h3, h4⟩ := ih u
      refine ⟨by simp [h1], h2, ?_, ?_⟩
      · intro i y hi
        cases i with
        | zero => simp at hi; exact ⟨_, rfl, fun _ => hi, fun h => absurd (hi.trans h) hx⟩
        | succ i => exact h3 i y (by simpa using hi)
      · intro i j y hi hj hyi hyj
        cases i with
        | zero => simp at hi; exact absurd hi hx
        | succ i =>
          cases j with
          | zero => simp at hj; exact absurd hj hx
          | succ j => rw [h4 i j y (by simpa using hi) (by simpa using hj) (by simpa using hyi) (by simpa using hyj)]

end IndexSet
end Verif.Index
