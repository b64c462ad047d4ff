import Verif.Base
import Mathlib.Logic.Equiv.Basic
import Mathlib.Algebra.BigOperators.Intervals

/-!
# `MPO::swapSiteInds` (mps/mpo.cc:271-288), property C120

A tensor is its list of indices and its data, by positions in the order of the list. `ITensor::swapInds` (itensor.cc:732-742) exchanges two
indices in the list and leaves the data alone; that its index part does so is C13, here it is taken as one step. The two site indices of a
tensor are supposed to have the same dimension (`replaceInds` throws otherwise, itensor.cc:697-702); arrows are left out. The tensors `A(0)` and `A(N+1)`
have no indices.
-/

namespace Verif.SwapSites

open Finset

variable {ι R : Type*} [DecidableEq ι]

/-- A tensor (itensor.h:37-38): the indices and the data. -/
structure Ten (ι R : Type*) where
  inds : List ι
  dat : List Nat → R

/-- The element for given values of all indices. -/
def Ten.elt (T : Ten ι R) (σ : ι → Nat) : R := T.dat (T.inds.map σ)

/-- `swapInds({s},{t})` (itensor.cc:732-742). -/
def swapInds (s t : ι) (T : Ten ι R) : Ten ι R := ⟨T.inds.map (Equiv.swap s t), T.dat⟩

/-- `siteInds(A,n)` (mps.cc:1213-1220, indexset.cc:650-658): the indices of one tensor which its neighbours do not have. -/
def siteInds (A : Nat → Ten ι R) (n : Nat) : List ι := (A n).inds.filter fun i => i ∉ (A (n - 1)).inds ∧ i ∉ (A (n + 1)).inds

/-- One round of the loop (mpo.cc:277-278); to read `s(1)` or `s(2)` when there are fewer indices is undefined. -/
def swapAt (A : Nat → Ten ι R) (n : Nat) : Res (Nat → Ten ι R) :=
  match siteInds A n with
  | s :: t :: _ => .ok (Function.update A n (swapInds s t (A n)))
  | _ => .ub

/-- `swapSiteInds` of an MPO with `N` sites (mpo.cc:271-281). A later round sees the tensors as they are by then. -/
def swapSiteInds (N : Nat) (A : Nat → Ten ι R) : Res (Nat → Ten ι R) := Res.foldM swapAt A ((List.range N).map (· + 1))

/-- What all rounds up to `k` do. -/
def upTo (s t : Nat → ι) (A : Nat → Ten ι R) (k n : Nat) : Ten ι R := if 1 ≤ n ∧ n ≤ k then swapInds (s n) (t n) (A n) else A n

theorem mem_swap {s t : ι} {l : List ι} (hs : s ∈ l) (ht : t ∈ l) (i : ι) : i ∈ l.map (Equiv.swap s t) ↔ i ∈ l := by
  rw [List.mem_map]
  constructor
  · rintro ⟨j, hj, rfl⟩
    by_cases h1 : j = s
    · subst h1; rw [Equiv.swap_apply_left]; exact ht
    by_cases h2 : j = t
    · subst h2; rw [Equiv.swap_apply_right]; exact hs
    rw [Equiv.swap_apply_of_ne_of_ne h1 h2]; exact hj
  · intro hi
    refine ⟨Equiv.swap s t i, ?_, Equiv.swap_apply_self s t i⟩
    by_cases h1 : i = s
    · subst h1; rw [Equiv.swap_apply_left]; exact ht
    by_cases h2 : i = t
    · subst h2; rw [Equiv.swap_apply_right]; exact hs
    rw [Equiv.swap_apply_of_ne_of_ne h1 h2]; exact hi

theorem loop_spec (N : Nat) (A : Nat → Ten ι R) (s t : Nat → ι) (h : ∀ n, 1 ≤ n → n ≤ N → siteInds A n = [s n, t n]) (k : Nat) (hk : k ≤ N) :
    swapSiteInds k A = .ok (upTo s t A k) := by
  have hmem : ∀ n, 1 ≤ n → n ≤ N → s n ∈ (A n).inds ∧ t n ∈ (A n).inds := by
    intro n h1 h2
    have hs : s n ∈ siteInds A n := by rw [h n h1 h2]; simp
    have ht : t n ∈ siteInds A n := by rw [h n h1 h2]; simp
    exact ⟨(List.mem_filter.1 hs).1, (List.mem_filter.1 ht).1⟩
  have hin : ∀ k ≤ N, ∀ n i, i ∈ (upTo s t A k n).inds ↔ i ∈ (A n).inds := by
    intro k hk n i
    unfold upTo
    by_cases hc : 1 ≤ n ∧ n ≤ k
    · rw [if_pos hc]
      obtain ⟨a, b⟩ := hmem n hc.1 (by omega)
      exact mem_swap a b i
    · rw [if_neg hc]
  induction k with
  | zero =>
    unfold swapSiteInds
    have : upTo s t A 0 = A := by funext n; unfold upTo; rw [if_neg (by omega)]
    rw [this]; rfl
  | succ k ih =>
    have e : swapSiteInds (k + 1) A = (swapSiteInds k A).bind fun B => swapAt B (k + 1) := by
      unfold swapSiteInds
      rw [List.range_succ, List.map_append]
      generalize (List.range k).map (· + 1) = l
      have key : ∀ (l : List Nat) (B : Nat → Ten ι R), Res.foldM swapAt B (l ++ [k + 1]) = (Res.foldM swapAt B l).bind fun B => swapAt B (k + 1) := by
        intro l
        induction l with
        | nil => intro B; simp only [List.nil_append, Res.foldM_cons, Res.foldM_nil, Res.bind_ok]; cases swapAt B (k + 1) <;> rfl
        | cons a l ih =>
          intro B
          rw [List.cons_append, Res.foldM_cons, Res.foldM_cons]
          cases swapAt B a with
          | ok x => simp only [Res.bind_ok]; exact ih x
          | throw => rfl
          | ub => rfl
      exact key l A
    rw [e, ih (by omega), Res.bind_ok]
    have hs : siteInds (upTo s t A k) (k + 1) = [s (k + 1), t (k + 1)] := by
      rw [← h (k + 1) (by omega) hk]
      unfold siteInds
      have e1 : (upTo s t A k (k + 1)).inds = (A (k + 1)).inds := by unfold upTo; rw [if_neg (by omega)]
      rw [e1]
      apply List.filter_congr
      intro i _
      exact decide_eq_decide.2 (and_congr (not_congr (hin k (by omega) (k + 1 - 1) i)) (not_congr (hin k (by omega) (k + 1 + 1) i)))
    unfold swapAt
    rw [hs]
    simp only
    congr 1
    funext n
    by_cases hn : n = k + 1
    · subst hn
      rw [Function.update_self]
      unfold upTo
      rw [if_neg (by omega), if_pos (by omega)]
    · rw [Function.update_of_ne hn]
      unfold upTo
      by_cases hc : 1 ≤ n ∧ n ≤ k
      · rw [if_pos hc, if_pos (by omega)]
      · rw [if_neg hc, if_neg (by omega)]

/-- Values of the link indices `l`, and of all others `σ`. -/
def join (L : Set ι) [DecidablePred (· ∈ L)] (l σ : ι → Nat) (i : ι) : Nat := if i ∈ L then l i else σ i

/-- **C120.** If each tensor of an MPO with `N` sites has two indices which its neighbours do not have, in any order, `swapSiteInds` gives the
transposed operator: every element, summed over any range of values of the link indices, is that of the original with the two site indices of
every site exchanged (`τ`). -/
theorem C120_transpose [CommSemiring R] (N : Nat) (A : Nat → Ten ι R) (s t : Nat → ι)
    (h : ∀ n, 1 ≤ n → n ≤ N → ((A n).inds.filter fun i => i ∉ (A (n - 1)).inds ∧ i ∉ (A (n + 1)).inds) = [s n, t n])
    (hne : ∀ n m, 1 ≤ n → n ≤ N → 1 ≤ m → m ≤ N → m ≠ n → s n ∉ (A m).inds ∧ t n ∉ (A m).inds)
    (τ : ι → ι) (hτs : ∀ n, 1 ≤ n → n ≤ N → τ (s n) = t n ∧ τ (t n) = s n)
    (hτ : ∀ i, (∀ n, 1 ≤ n → n ≤ N → i ≠ s n ∧ i ≠ t n) → τ i = i)
    (L : Set ι) [DecidablePred (· ∈ L)] (hL : ∀ n, 1 ≤ n → n ≤ N → s n ∉ L ∧ t n ∉ L) (S : Finset (ι → Nat)) :
    ∃ A', swapSiteInds N A = .ok A' ∧ ∀ σ,
      ∑ l ∈ S, ∏ n ∈ Icc 1 N, (A' n).elt (join L l σ) = ∑ l ∈ S, ∏ n ∈ Icc 1 N, (A n).elt (join L l (σ ∘ τ)) := by
  refine ⟨_, loop_spec N A s t h N (Nat.le_refl _), fun σ => ?_⟩
  refine Finset.sum_congr rfl fun l _ => Finset.prod_congr rfl fun n hn => ?_
  rw [Finset.mem_Icc] at hn
  unfold upTo
  rw [if_pos hn]
  unfold Ten.elt swapInds
  simp only [List.map_map]
  congr 1
  apply List.map_congr_left
  intro i hi
  obtain ⟨l1, l2⟩ := hL n hn.1 hn.2
  obtain ⟨t1, t2⟩ := hτs n hn.1 hn.2
  simp only [Function.comp_apply, join]
  by_cases h1 : i = s n
  · subst h1
    rw [Equiv.swap_apply_left, if_neg l2, if_neg l1, t1]
  by_cases h2 : i = t n
  · subst h2
    rw [Equiv.swap_apply_right, if_neg l1, if_neg l2, t2]
  rw [Equiv.swap_apply_of_ne_of_ne h1 h2, hτ i fun m m1 m2 => ?_]
  by_cases e : m = n
  · subst e; exact ⟨h1, h2⟩
  · obtain ⟨a, b⟩ := hne m n m1 m2 hn.1 hn.2 (fun e' => e e'.symm)
    exact ⟨fun e' => a (e' ▸ hi), fun e' => b (e' ▸ hi)⟩

/-- Two sites with site indices 1 and 2, 3 and 4 and one link 9; the indices of the second site come in another order. -/
def exA (n : Nat) : Ten Nat Nat :=
  if n = 1 then ⟨[1, 9, 2], fun v => v.headD 0 + 1⟩ else if n = 2 then ⟨[4, 3, 9], fun v => 2 * v.headD 0 + v.getLastD 0⟩ else ⟨[], fun _ => 1⟩

/-- The hypotheses hold of it, for any range of values of the link. -/
example (S : Finset (Nat → Nat)) : ∃ A', swapSiteInds 2 exA = .ok A' ∧ ∀ σ,
    ∑ l ∈ S, ∏ n ∈ Icc 1 2, (A' n).elt (join {9} l σ) =
      ∑ l ∈ S, ∏ n ∈ Icc 1 2, (exA n).elt (join {9} l (σ ∘ fun i => if i = 1 then 2 else if i = 2 then 1 else if i = 3 then 4 else if i = 4 then 3 else i)) := by
  have h2 : ∀ {p : Nat → Prop}, p 1 → p 2 → ∀ n, 1 ≤ n → n ≤ 2 → p n := by
    intro p p1 p2 n a b
    obtain rfl | rfl : n = 1 ∨ n = 2 := by omega
    · exact p1
    · exact p2
  refine C120_transpose 2 exA (fun n => if n = 1 then 1 else 4) (fun n => if n = 1 then 2 else 3) (h2 (by decide) (by decide)) ?_ _
    (h2 (by decide) (by decide)) ?_ {9} (h2 (by simp) (by simp)) _
  · intro n m n1 n2 m1 m2 hne
    obtain ⟨rfl, rfl⟩ | ⟨rfl, rfl⟩ : (n = 1 ∧ m = 2) ∨ (n = 2 ∧ m = 1) := by omega
    · decide
    · decide
  · intro i hi
    have a := hi 1 (by decide) (by decide)
    have b := hi 2 (by decide) (by decide)
    simp at a b
    simp [a, b]

/-- The tensors it gives. -/
example : ∃ A', swapSiteInds 2 exA = .ok A' ∧ (A' 1).inds = [2, 9, 1] ∧ (A' 2).inds = [3, 4, 9] := by
  refine ⟨_, rfl, by decide, by decide⟩

end Verif.SwapSites
