import Verif.Tensor.Range
import Mathlib.Data.List.Forall2
import Mathlib.Tactic.Ring
import Mathlib.Data.Nat.ModEq
import Mathlib.Data.List.Perm.Basic
import Mathlib.Data.List.Nodup

/-!
# Specification vocabulary and lemmas for ranges
-/

namespace Verif.Tensor

/-- `i` is a (0-based) multi-index for extents `ds`. -/
abbrev Valid (ds : List Nat) (i : List Nat) : Prop := List.Forall₂ (· < ·) i ds

/-- The `k`-th multi-index in first-index-fastest order: mixed-radix digits of `k`. -/
def unrank : List Nat → Nat → List Nat
  | [], _ => []
  | d :: ds, k => (k % d) :: unrank ds (k / d)

/-- Address of a multi-index: the sum of index times stride. -/
def addr : Range → List Nat → Nat
  | r :: R, i :: is => r.str * i + addr R is
  | _, _ => 0

/-- All multi-indices, first index fastest. -/
def allInds (ds : List Nat) : List (List Nat) := (List.range ds.prod).map (unrank ds)

@[simp] theorem addr_nil_left (i : List Nat) : addr [] i = 0 := rfl
@[simp] theorem addr_nil_right (R : Range) : addr R [] = 0 := by cases R <;> rfl
@[simp] theorem addr_cons (r : IndStr) (R : Range) (i : Nat) (is : List Nat) :
    addr (r :: R) (i :: is) = r.str * i + addr R is := rfl

@[simp] theorem unrank_length (ds : List Nat) (k : Nat) : (unrank ds k).length = ds.length := by
  induction ds generalizing k with
  | nil => rfl
  | cons d ds ih => simp [unrank, ih]

theorem valid_pos {ds i : List Nat} (h : Valid ds i) : 0 < ds.prod := by
  induction h with
  | nil => simp
  | cons h _ ih => simp only [List.prod_cons]; exact Nat.mul_pos (by omega) ih

theorem valid_length {ds i : List Nat} (h : Valid ds i) : i.length = ds.length := h.length_eq

theorem unrank_valid {ds : List Nat} {k : Nat} (h : k < ds.prod) : Valid ds (unrank ds k) := by
  induction ds generalizing k with
  | nil => exact .nil
  | cons d ds ih =>
    simp only [List.prod_cons] at h
    have hd : 0 < d := Nat.pos_of_ne_zero (by rintro rfl; simp at h)
    exact .cons (Nat.mod_lt _ hd) (ih (Nat.div_lt_of_lt_mul h))

/-- Column-major rank. -/
def rank : List Nat → List Nat → Nat
  | d :: ds, i :: is => i + d * rank ds is
  | _, _ => 0

theorem rank_lt {ds i : List Nat} (h : Valid ds i) : rank ds i < ds.prod := by
  induction h with
  | nil => simp [rank]
  | @cons i d is ds h hv ih =>
    simp only [rank, List.prod_cons]
    calc i + d * rank ds is < d + d * rank ds is := by omega
      _ = d * (rank ds is + 1) := by ring
      _ ≤ d * ds.prod := Nat.mul_le_mul_left _ ih

theorem unrank_rank {ds i : List Nat} (h : Valid ds i) : unrank ds (rank ds i) = i := by
  induction h with
  | nil => rfl
  | @cons i d is ds h hv ih =>
    simp only [rank, unrank]
    have hd : 0 < d := by omega
    rw [Nat.add_mul_mod_self_left, Nat.mod_eq_of_lt h, Nat.add_mul_div_left _ _ hd,
      Nat.div_eq_of_lt h, Nat.zero_add, ih]

theorem rank_unrank {ds : List Nat} {k : Nat} (h : k < ds.prod) : rank ds (unrank ds k) = k := by
  induction ds generalizing k with
  | nil => simp at h; simp [rank, unrank, h]
  | cons d ds ih =>
    simp only [List.prod_cons] at h
    simp only [unrank, rank]
    rw [ih (Nat.div_lt_of_lt_mul h), Nat.mod_add_div]

theorem unrank_inj {ds : List Nat} {a b : Nat} (ha : a < ds.prod) (hb : b < ds.prod)
    (h : unrank ds a = unrank ds b) : a = b := by
  rw [← rank_unrank ha, ← rank_unrank hb, h]

theorem mem_allInds {ds i : List Nat} : i ∈ allInds ds ↔ Valid ds i := by
  unfold allInds
  rw [List.mem_map]
  constructor
  · rintro ⟨k, hk, rfl⟩; exact unrank_valid (List.mem_range.1 hk)
  · intro h; exact ⟨rank ds i, List.mem_range.2 (rank_lt h), unrank_rank h⟩

theorem allInds_nodup (ds : List Nat) : (allInds ds).Nodup := by
  unfold allInds
  refine List.Nodup.map_on ?_ List.nodup_range
  intro a ha b hb h
  exact unrank_inj (List.mem_range.1 ha) (List.mem_range.1 hb) h

theorem allInds_length (ds : List Nat) : (allInds ds).length = ds.prod := by simp [allInds]

namespace Range

theorem extents_initFrom (s : Nat) (ds : List Nat) : (initFrom s ds).extents = ds := by
  induction ds generalizing s with
  | nil => rfl
  | cons d ds ih =>
    have := ih (s * d)
    simp only [initFrom, extents, List.map_cons] at this ⊢; rw [this]

@[simp] theorem extents_init (ds : List Nat) : (init ds).extents = ds := extents_initFrom 1 ds

theorem strides_eq (s : Nat) (R : Range) : strides s R = initFrom s (Range.extents R) := by
  induction R generalizing s with
  | nil => rfl
  | cons r R ih =>
    have := ih (s * r.ind)
    simp only [strides, initFrom, extents, List.map_cons] at this ⊢; rw [this]

theorem computeStrides_eq (R : Range) : computeStrides R = init (Range.extents R) := strides_eq 1 R

theorem dim_eq (R : Range) : R.dim = (Range.extents R).prod := by
  have : ∀ (R : Range) (a : Nat), R.foldl (fun A r => A * r.ind) a = a * (Range.extents R).prod := by
    intro R
    induction R with
    | nil => intro a; simp [extents]
    | cons r R ih =>
      intro a
      simp only [List.foldl_cons, ih, extents, List.map_cons, List.prod_cons, Nat.mul_assoc]
  have h := this R 1
  rw [Nat.one_mul] at h
  exact h

theorem addr_initFrom (s : Nat) {ds i : List Nat} (h : i.length = ds.length) :
    addr (initFrom s ds) i = s * rank ds i := by
  induction ds generalizing s i with
  | nil => simp [initFrom, rank]
  | cons d ds ih =>
    cases i with
    | nil => simp at h
    | cons i is =>
      simp only [initFrom, addr_cons, rank]
      rw [ih (s * d) (by simpa using h)]
      ring

theorem addr_init {ds i : List Nat} (h : i.length = ds.length) :
    addr (init ds) i = rank ds i := by
  unfold init; rw [addr_initFrom 1 h, Nat.one_mul]

theorem offsetLoop_eq (start : Nat) (R : Range) (i : List Nat) (I : Int) (h : i.length ≤ R.length) :
    offsetLoop start R (i.map (· + start)) I = .ok (I + addr R i) := by
  induction R generalizing i I with
  | nil => cases i with
    | nil => simp [offsetLoop]
    | cons _ _ => simp at h
  | cons r R ih =>
    cases i with
    | nil => simp [offsetLoop]
    | cons i is =>
      simp only [List.map_cons, offsetLoop, addr_cons]
      rw [ih _ _ (by simpa using h)]
      congr 1
      push_cast
      ring

theorem offset_eq (start : Nat) (R : Range) (i : List Nat) (h : i.length ≤ R.length) :
    offset start R (i.map (· + start)) = .ok (addr R i : Int) := by
  unfold offset; rw [offsetLoop_eq start R i 0 h, Int.zero_add]

theorem offset_zero_eq (R : Range) (i : List Nat) (h : i.length ≤ R.length) :
    offset 0 R i = .ok (addr R i : Int) := by
  have := offset_eq 0 R i h
  simpa using this

end Range

namespace RIter

/-- The state in which the iterator reports the `k`-th multi-index. -/
def stateAt (start : Nat) (R : Range) (k : Nat) : RIter :=
  ⟨addr R (unrank (Range.extents R) k), (unrank (Range.extents R) k).map (· + start)⟩

theorem div_mod_succ_lt {d k : Nat} (hd : 0 < d) (h : k % d + 1 < d) :
    (k + 1) % d = k % d + 1 ∧ (k + 1) / d = k / d := by
  have e : k + 1 = (k % d + 1) + d * (k / d) := by
    have := Nat.mod_add_div k d; omega
  constructor
  · rw [e, Nat.add_mul_mod_self_left, Nat.mod_eq_of_lt h]
  · rw [e, Nat.add_mul_div_left _ _ hd, Nat.div_eq_of_lt h, Nat.zero_add]

theorem div_mod_succ_eq {d k : Nat} (hd : 0 < d) (h : k % d + 1 = d) :
    (k + 1) % d = 0 ∧ (k + 1) / d = k / d + 1 := by
  have e : k + 1 = d * (k / d + 1) := by
    have := Nat.mod_add_div k d
    rw [Nat.mul_add, Nat.mul_one]; omega
  constructor
  · rw [e, Nat.mul_mod_right]
  · rw [e, Nat.mul_div_cancel_left _ hd]

theorem carry_spec (start : Nat) (R : Range) (hpos : ∀ d ∈ (Range.extents R), 0 < d) (prev : IndStr)
    (ip k : Nat) (c : Int) (hk : k < (Range.extents R).prod) :
    ∃ q, carry start prev ip R ((unrank (Range.extents R) k).map (· + start))
        (prev.ind * prev.str + addr R (unrank (Range.extents R) k) + c) = .ok q ∧
      (k + 1 < (Range.extents R).prod →
        q = (start :: (unrank (Range.extents R) (k + 1)).map (· + start),
          (addr R (unrank (Range.extents R) (k + 1)) : Int) + c)) ∧
      (k + 1 = (Range.extents R).prod → q.2 = offMax) := by
  induction R generalizing prev ip k c with
  | nil =>
    simp only [Range.extents, List.map_nil, List.prod_nil] at hk
    exact ⟨_, rfl, by simp [Range.extents], fun _ => rfl⟩
  | cons r R ih =>
    have hex : Range.extents (r :: R) = r.ind :: (Range.extents R) := rfl
    rw [hex] at hpos hk ⊢
    have hd : 0 < r.ind := hpos _ (by simp)
    simp only [List.prod_cons] at hk ⊢
    have hq : k / r.ind < (Range.extents R).prod := Nat.div_lt_of_lt_mul hk
    simp only [unrank, List.map_cons, carry, addr_cons]
    by_cases hlt : k % r.ind + 1 < r.ind
    · have hs := div_mod_succ_lt hd hlt
      rw [if_pos (by omega)]
      refine ⟨_, rfl, fun _ => ?_, fun h => ?_⟩
      · rw [hs.1, hs.2, show k % r.ind + start + 1 = k % r.ind + 1 + start by omega]
        congr 1
        push_cast
        ring
      · exfalso
        have e := Nat.mod_add_div k r.ind
        have : r.ind * (k / r.ind) + r.ind ≤ r.ind * (Range.extents R).prod := by
          rw [← Nat.mul_succ]; exact Nat.mul_le_mul_left _ hq
        omega
    · have hmod := Nat.mod_lt k hd
      have heq : k % r.ind + 1 = r.ind := by omega
      have hs := div_mod_succ_eq hd heq
      rw [if_neg (by omega)]
      obtain ⟨q, e, h1, h2⟩ := ih (fun d hd' => hpos d (by simp [hd'])) r (k % r.ind + start + 1)
        (k / r.ind) c hq
      have eoff : ((prev.ind : Int) * prev.str + ((r.str * (k % r.ind) + addr R (unrank (Range.extents R) (k / r.ind)) : Nat) : Int)
          + c) - prev.ind * prev.str + r.str =
          r.ind * r.str + addr R (unrank (Range.extents R) (k / r.ind)) + c := by
        have : (r.ind : Int) = (k % r.ind : Nat) + 1 := by omega
        rw [this]; push_cast; ring
      rw [eoff, e]
      have hN : k + 1 = r.ind * (k / r.ind + 1) := by
        have := Nat.mod_add_div k r.ind
        rw [Nat.mul_succ]; omega
      refine ⟨_, rfl, fun h => ?_, fun h => ?_⟩
      · rw [hN] at h
        have := h1 (Nat.lt_of_mul_lt_mul_left h)
        rw [this, hs.1, hs.2]
        simp
      · rw [hN] at h
        exact h2 (Nat.eq_of_mul_eq_mul_left hd h)

/-- One increment moves to the next multi-index, or sets the done value after the last. -/
theorem increment_spec (start : Nat) (R : Range) (hR : R ≠ []) (hpos : ∀ d ∈ (Range.extents R), 0 < d) (k : Nat)
    (hk : k < (Range.extents R).prod) :
    ∃ s, increment start R (stateAt start R k) = .ok s ∧
      (k + 1 < (Range.extents R).prod → s = stateAt start R (k + 1)) ∧
      (k + 1 = (Range.extents R).prod → s.off = offMax) := by
  cases R with
  | nil => exact absurd rfl hR
  | cons r R =>
    unfold stateAt
    have hex : Range.extents (r :: R) = r.ind :: (Range.extents R) := rfl
    rw [hex] at hpos hk ⊢
    have hd : 0 < r.ind := hpos _ (by simp)
    simp only [List.prod_cons] at hk ⊢
    have hq : k / r.ind < (Range.extents R).prod := Nat.div_lt_of_lt_mul hk
    simp only [unrank, List.map_cons, increment, addr_cons]
    by_cases heq : k % r.ind + 1 = r.ind
    · have hs := div_mod_succ_eq hd heq
      rw [if_pos (by omega)]
      obtain ⟨q, e, h1, h2⟩ := carry_spec start R (fun d hd' => hpos d (by simp [hd'])) r
        (k % r.ind + start + 1) (k / r.ind) 0 hq
      have eoff : (((r.str * (k % r.ind) + addr R (unrank (Range.extents R) (k / r.ind)) : Nat) : Int)
          + r.str) =
          r.ind * r.str + addr R (unrank (Range.extents R) (k / r.ind)) + 0 := by
        have : (r.ind : Int) = (k % r.ind : Nat) + 1 := by omega
        rw [this]; push_cast; ring
      rw [eoff, e]
      have hN : k + 1 = r.ind * (k / r.ind + 1) := by
        have := Nat.mod_add_div k r.ind
        rw [Nat.mul_succ]; omega
      refine ⟨_, rfl, fun h => ?_, fun h => ?_⟩
      · rw [hN] at h
        have := h1 (Nat.lt_of_mul_lt_mul_left h)
        rw [this, hs.1, hs.2]
        simp
      · rw [hN] at h
        exact h2 (Nat.eq_of_mul_eq_mul_left hd h)
    · have hmod := Nat.mod_lt k hd
      have hlt : k % r.ind + 1 < r.ind := by omega
      have hs := div_mod_succ_lt hd hlt
      rw [if_neg (by omega)]
      refine ⟨_, rfl, fun _ => ?_, fun h => ?_⟩
      · rw [hs.1, hs.2, show k % r.ind + start + 1 = k % r.ind + 1 + start by omega]
        congr 1
        push_cast
        ring
      · exfalso
        have e := Nat.mod_add_div k r.ind
        have : r.ind * (k / r.ind) + r.ind ≤ r.ind * (Range.extents R).prod := by
          rw [← Nat.mul_succ]; exact Nat.mul_le_mul_left _ hq
        omega

theorem begin_eq (start : Nat) (R : Range) : begin start R = stateAt start R 0 := by
  unfold begin stateAt
  have h0 : ∀ ds : List Nat, unrank ds 0 = List.replicate ds.length 0 := by
    intro ds
    induction ds with
    | nil => rfl
    | cons d ds ih => simp [unrank, ih, List.replicate_succ]
  have ha : ∀ (R : Range) n, addr R (List.replicate n 0) = 0 := by
    intro R
    induction R with
    | nil => intro n; rfl
    | cons r R ih =>
      intro n
      cases n with
      | zero => simp
      | succ n => simp [List.replicate_succ, ih]
  rw [h0, ha]
  simp [Range.extents]

theorem forEach_spec (start : Nat) (R : Range) (hR : R ≠ []) (hpos : ∀ d ∈ (Range.extents R), 0 < d)
    (hmax : ∀ i, Valid (Range.extents R) i → (addr R i : Int) < offMax) (n k fuel : Nat)
    (hn : n + k = (Range.extents R).prod) (h1 : 1 ≤ n) (hf : n < fuel) :
    forEach start R fuel (stateAt start R k) =
      some (.ok ((List.range' k n).map (stateAt start R))) := by
  induction n generalizing k fuel with
  | zero => omega
  | succ n ih =>
    obtain ⟨fuel, rfl⟩ : ∃ f, fuel = f + 1 := ⟨fuel - 1, by omega⟩
    have hk : k < (Range.extents R).prod := by omega
    have hnd : (stateAt start R k).notDone = true := by
      unfold notDone stateAt
      have := hmax _ (unrank_valid hk)
      simp only [bne_iff_ne, ne_eq]; omega
    obtain ⟨s, e, ha, hb⟩ := increment_spec start R hR hpos k hk
    rw [forEach, if_pos hnd]
    simp only [e]
    by_cases hn0 : n = 0
    · subst hn0
      have := hb (by omega)
      obtain ⟨fuel, rfl⟩ : ∃ f, fuel = f + 1 := ⟨fuel - 1, by omega⟩
      rw [forEach, if_neg (by simp [notDone, this])]
      rfl
    · rw [ha (by omega), ih (k + 1) fuel (by omega) (by omega) (by omega)]
      simp [List.range'_succ]

end RIter

end Verif.Tensor
