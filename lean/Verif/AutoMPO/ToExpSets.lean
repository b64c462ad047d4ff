import Mathlib.Algebra.BigOperators.Ring.Finset
import Mathlib.Algebra.BigOperators.Fin
import Mathlib.Algebra.BigOperators.Intervals
import Mathlib.Order.Interval.Finset.Nat
import Mathlib.Tactic.Ring

/-!
# Sums over sets of intervals which do not overlap
-/

namespace Verif.AutoMPO

open Finset

variable {K : Type*} [CommRing K] {ι : Type*} [Fintype ι] [DecidableEq ι]

/-- The intervals from `a i` to `b i` for `i` in `S` do not overlap. -/
def Apart (a b : ι → Nat) (S : Finset ι) : Prop := ∀ i ∈ S, ∀ j ∈ S, i ≠ j → b i < a j ∨ b j < a i

instance (a b : ι → Nat) (S : Finset ι) : Decidable (Apart a b S) := inferInstanceAs (Decidable (∀ i ∈ S, ∀ j ∈ S, _))

/-- The sites from `1` to `n` which are in no interval of `S`. -/
def free (a b : ι → Nat) (S : Finset ι) (n : Nat) : Finset Nat := (Icc 1 n).filter fun m => ∀ i ∈ S, ¬(a i ≤ m ∧ m ≤ b i)

theorem mem_free {a b : ι → Nat} {S : Finset ι} {n m : Nat} :
    m ∈ free a b S n ↔ (1 ≤ m ∧ m ≤ n) ∧ ∀ i ∈ S, ¬(a i ≤ m ∧ m ≤ b i) := by
  rw [free, mem_filter, mem_Icc]

/-- The sum over all sets of intervals up to `n` which do not overlap, of the product of the weights of the intervals and
of the sites in no interval. -/
def setSum (a b : ι → Nat) (w : ι → K) (e : Nat → K) (n : Nat) : K :=
  ∑ S ∈ univ.filter fun S : Finset ι => Apart a b S ∧ ∀ i ∈ S, b i ≤ n, (∏ i ∈ S, w i) * ∏ m ∈ free a b S n, e m

variable {a b : ι → Nat} {w : ι → K} {e : Nat → K}

theorem setSum_zero (h1 : ∀ i, 1 ≤ a i) (hab : ∀ i, a i ≤ b i) : setSum a b w e 0 = 1 := by
  have : (univ.filter fun S : Finset ι => Apart a b S ∧ ∀ i ∈ S, b i ≤ 0) = {∅} := by
    ext S
    simp only [mem_filter, mem_univ, true_and, mem_singleton]
    constructor
    · rintro ⟨_, h⟩
      refine eq_empty_of_forall_notMem fun i hi => ?_
      have := h i hi
      have := h1 i
      have := hab i
      omega
    · rintro rfl
      simp [Apart]
  rw [setSum, this]
  simp [free]

/-- The sets without an interval which ends at `n + 1`. -/
theorem sum_without (n : Nat) :
    ∑ S ∈ univ.filter fun S : Finset ι => Apart a b S ∧ ∀ i ∈ S, b i ≤ n, (∏ i ∈ S, w i) * ∏ m ∈ free a b S (n + 1), e m =
      setSum a b w e n * e (n + 1) := by
  rw [setSum, sum_mul]
  refine sum_congr rfl fun S hS => ?_
  simp only [mem_filter, mem_univ, true_and] at hS
  have : free a b S (n + 1) = insert (n + 1) (free a b S n) := by
    ext m
    simp only [free, mem_filter, mem_insert, mem_Icc]
    constructor
    · rintro ⟨⟨g1, g2⟩, g⟩
      by_cases hm : m = n + 1
      · exact .inl hm
      · exact .inr ⟨by omega, g⟩
    · rintro (rfl | ⟨g1, g⟩)
      · exact ⟨by omega, fun i hi => by have := hS.2 i hi; omega⟩
      · exact ⟨by omega, g⟩
  rw [this, prod_insert (by simp [free])]
  ring

/-- The sets with the interval `i` which ends at `n + 1`. -/
theorem sum_with (h1 : ∀ i, 1 ≤ a i) (hab : ∀ i, a i ≤ b i) {n : Nat} {i : ι} (hi : b i = n + 1) :
    ∑ S ∈ univ.filter fun S : Finset ι => (Apart a b S ∧ ∀ j ∈ S, b j ≤ n + 1) ∧ i ∈ S,
      (∏ j ∈ S, w j) * ∏ m ∈ free a b S (n + 1), e m = setSum a b w e (a i - 1) * w i := by
  rw [setSum, sum_mul]
  refine sum_bij' (fun S _ => S.erase i) (fun S _ => insert i S) ?_ ?_ ?_ ?_ ?_
  · intro S hS
    simp only [mem_filter, mem_univ, true_and] at hS ⊢
    obtain ⟨⟨hA, hB⟩, hm⟩ := hS
    refine ⟨fun j hj k hk hjk => hA j (mem_of_mem_erase hj) k (mem_of_mem_erase hk) hjk, fun j hj => ?_⟩
    have := hA i hm j (mem_of_mem_erase hj) (ne_of_mem_erase hj).symm
    have := hB j (mem_of_mem_erase hj)
    have := hab j
    omega
  · intro S hS
    simp only [mem_filter, mem_univ, true_and] at hS ⊢
    obtain ⟨hA, hB⟩ := hS
    refine ⟨⟨?_, ?_⟩, mem_insert_self _ _⟩
    · intro j hj k hk hjk
      have := h1 i
      rcases mem_insert.1 hj with rfl | hj' <;> rcases mem_insert.1 hk with rfl | hk'
      · exact absurd rfl hjk
      · have := hB k hk'; omega
      · have := hB j hj'; omega
      · exact hA j hj' k hk' hjk
    · intro j hj
      have := hab i
      rcases mem_insert.1 hj with rfl | hj
      · omega
      · have := hB j hj; omega
  · intro S hS
    simp only [mem_filter, mem_univ, true_and] at hS
    exact insert_erase hS.2
  · intro S hS
    simp only [mem_filter, mem_univ, true_and] at hS
    refine erase_insert fun h => ?_
    have := hS.2 i h
    have := hab i
    have := h1 i
    omega
  · intro S hS
    simp only [mem_filter, mem_univ, true_and] at hS
    obtain ⟨⟨hA, hB⟩, hm⟩ := hS
    have : free a b S (n + 1) = free a b (S.erase i) (a i - 1) := by
      ext m
      simp only [free, mem_filter, mem_Icc]
      constructor
      · rintro ⟨g1, g⟩
        have := g i hm
        exact ⟨by omega, fun j hj => g j (mem_of_mem_erase hj)⟩
      · rintro ⟨g1, g⟩
        have := hab i
        refine ⟨by omega, fun j hj => ?_⟩
        by_cases hji : j = i
        · subst hji; omega
        · exact g j (mem_erase.2 ⟨hji, hj⟩)
    rw [this, ← mul_prod_erase S w hm]
    ring

theorem setSum_succ (h1 : ∀ i, 1 ≤ a i) (hab : ∀ i, a i ≤ b i) (n : Nat) :
    setSum a b w e (n + 1) = setSum a b w e n * e (n + 1) +
      ∑ i, if b i = n + 1 then setSum a b w e (a i - 1) * w i else 0 := by
  have hsplit : (univ.filter fun S : Finset ι => Apart a b S ∧ ∀ i ∈ S, b i ≤ n + 1) =
      (univ.filter fun S : Finset ι => Apart a b S ∧ ∀ i ∈ S, b i ≤ n) ∪
        (univ.filter fun i => b i = n + 1).biUnion fun i =>
          univ.filter fun S : Finset ι => (Apart a b S ∧ ∀ j ∈ S, b j ≤ n + 1) ∧ i ∈ S := by
    ext S
    simp only [mem_filter, mem_univ, true_and, mem_union, mem_biUnion]
    constructor
    · rintro ⟨hA, hB⟩
      by_cases h : ∃ i ∈ S, b i = n + 1
      · obtain ⟨i, hi, e⟩ := h
        exact .inr ⟨i, e, ⟨hA, hB⟩, hi⟩
      · refine .inl ⟨hA, fun i hi => ?_⟩
        have := hB i hi
        have : ¬b i = n + 1 := fun e => h ⟨i, hi, e⟩
        omega
    · rintro (⟨hA, hB⟩ | ⟨i, _, h, _⟩)
      · exact ⟨hA, fun i hi => (hB i hi).trans (by omega)⟩
      · exact h
  rw [setSum, hsplit, sum_union, sum_without, sum_biUnion, sum_filter]
  · congr 1
    refine sum_congr rfl fun i _ => ?_
    split
    · rename_i h
      exact sum_with h1 hab h
    · rfl
  · intro i hi j hj hij
    simp only [coe_filter, mem_univ, true_and, Set.mem_ofPred_eq] at hi hj
    rw [Function.onFun, disjoint_left]
    intro S hS hS'
    simp only [mem_filter, mem_univ, true_and] at hS hS'
    have := hS.1.1 i hS.2 j hS'.2 hij
    have := hab i
    have := hab j
    omega
  · rw [disjoint_left]
    intro S hS hS'
    simp only [mem_filter, mem_univ, true_and, mem_biUnion] at hS hS'
    obtain ⟨i, e, _, hi⟩ := hS'
    have := hS.2 i hi
    omega

end Verif.AutoMPO
