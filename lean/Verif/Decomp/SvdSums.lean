import Verif.Decomp.SvdAsm
import Mathlib.Algebra.Star.BigOperators

/-!
# Sums over the blocks of a matrix
-/

namespace Verif.Svd

variable {R K : Type*}

section
variable {α β : Type*} [AddCommMonoid α]

theorem finset_list_sum (s : Finset Nat) (bs : List β) (f : β → Nat → α) :
    ∑ a ∈ s, (bs.map fun B => f B a).sum = (bs.map fun B => ∑ a ∈ s, f B a).sum := by
  induction bs with
  | nil => simp
  | cons B bs ih => simp only [List.map_cons, List.sum_cons, Finset.sum_add_distrib, ih]

theorem list_sum_zero (bs : List β) (f : β → α) (h : ∀ B ∈ bs, f B = 0) : (bs.map f).sum = 0 := by
  induction bs with
  | nil => rfl
  | cons B bs ih => rw [List.map_cons, List.sum_cons, h B (by simp), ih fun B' hB' => h B' (by simp [hB']), add_zero]

theorem list_sum_congr (bs : List β) (f g : β → α) (h : ∀ B ∈ bs, f B = g B) : (bs.map f).sum = (bs.map g).sum := by
  rw [List.map_congr_left h]

/-- In a list of blocks at different places the sum over those at one place is the only one. -/
theorem list_sum_one {i1 i2 : β → Nat} {bs : List β} (hd : bs.Pairwise fun B B' => ¬(i1 B = i1 B' ∧ i2 B = i2 B')) (g : β → α) {B : β} (hB : B ∈ bs) :
    (bs.map fun C => if i1 C = i1 B ∧ i2 C = i2 B then g C else 0).sum = g B := by
  induction bs with
  | nil => simp at hB
  | cons C bs ih =>
    rw [List.pairwise_cons] at hd
    rw [List.map_cons, List.sum_cons]
    rcases List.mem_cons.1 hB with rfl | hB
    · rw [if_pos ⟨rfl, rfl⟩, list_sum_zero, add_zero]
      intro C hC
      rw [if_neg]
      intro h
      exact hd.1 C hC ⟨h.1.symm, h.2.symm⟩
    · rw [if_neg (hd.1 B hB), zero_add, ih hd.2 hB]

/-- The sum of `Φ` of the elements of a matrix given by blocks at different places. -/
theorem block_sum {α' : Type*} [AddCommMonoid α'] {i1 i2 : β → Nat} {bs : List β} (hd : bs.Pairwise fun B B' => ¬(i1 B = i1 B' ∧ i2 B = i2 B')) (na nb : Nat) (su sv : Nat → Nat)
    (hr : ∀ B ∈ bs, i1 B < na ∧ i2 B < nb) (G : β → Nat → Nat → α) (Φ : α → α') (h0 : Φ 0 = 0) :
    ∑ a ∈ Finset.range na, ∑ b ∈ Finset.range nb, ∑ x ∈ Finset.range (su a), ∑ y ∈ Finset.range (sv b),
        Φ ((bs.map fun B => if i1 B = a ∧ i2 B = b then G B x y else 0).sum) =
      (bs.map fun B => ∑ x ∈ Finset.range (su (i1 B)), ∑ y ∈ Finset.range (sv (i2 B)), Φ (G B x y)).sum := by
  have h1 : ∀ a b, ∑ x ∈ Finset.range (su a), ∑ y ∈ Finset.range (sv b), Φ ((bs.map fun B => if i1 B = a ∧ i2 B = b then G B x y else 0).sum) =
      (bs.map fun B => if i1 B = a ∧ i2 B = b then ∑ x ∈ Finset.range (su (i1 B)), ∑ y ∈ Finset.range (sv (i2 B)), Φ (G B x y) else 0).sum := by
    intro a b
    by_cases h : ∃ B ∈ bs, i1 B = a ∧ i2 B = b
    · obtain ⟨B, hB, rfl, rfl⟩ := h
      rw [list_sum_one hd (fun B => ∑ x ∈ Finset.range (su (i1 B)), ∑ y ∈ Finset.range (sv (i2 B)), Φ (G B x y)) hB]
      refine Finset.sum_congr rfl fun x _ => Finset.sum_congr rfl fun y _ => ?_
      rw [list_sum_one hd (fun C => G C x y) hB]
    · push Not at h
      rw [list_sum_zero bs _ fun B hB => if_neg fun e => h B hB e.1 e.2]
      refine Finset.sum_eq_zero fun x _ => Finset.sum_eq_zero fun y _ => ?_
      rw [list_sum_zero bs _ fun B hB => if_neg fun e => h B hB e.1 e.2, h0]
  simp only [h1, finset_list_sum]
  refine list_sum_congr _ _ _ fun B hB => ?_
  obtain ⟨h2, h3⟩ := hr B hB
  rw [Finset.sum_eq_single_of_mem (i1 B) (Finset.mem_range.2 h2), Finset.sum_eq_single_of_mem (i2 B) (Finset.mem_range.2 h3), if_pos ⟨rfl, rfl⟩]
  · intro b _ hb
    rw [if_neg fun e => hb e.2.symm]
  · intro a _ ha
    exact Finset.sum_eq_zero fun b _ => if_neg fun e => ha e.1.symm

end

/-! ## The decomposition of one block -/

section
variable [Field R] [LinearOrder R] [CommRing K] [StarRing K] [Algebra R K]

/-- `U`, `d`, `V` is a singular value decomposition of the matrix `M`: `M = U d V†`, the columns of `U` and of `V` are orthonormal, the values are not negative,
in decreasing order and as many as the shorter side of the matrix is long. -/
structure IsSvd (nr nc : Nat) (M : Nat → Nat → K) (F : Fac R K) : Prop where
  eq : ∀ i < nr, ∀ j < nc, M i j = ∑ k ∈ Finset.range F.d.length, F.U i k * algebraMap R K (F.d.getD k 0) * star (F.V j k)
  uu : ∀ k < F.d.length, ∀ k' < F.d.length, ∑ i ∈ Finset.range nr, star (F.U i k) * F.U i k' = if k = k' then 1 else 0
  vv : ∀ k < F.d.length, ∀ k' < F.d.length, ∑ j ∈ Finset.range nc, star (F.V j k) * F.V j k' = if k = k' then 1 else 0
  nonneg : ∀ x ∈ F.d, 0 ≤ x
  desc : F.d.Pairwise (· ≥ ·)
  len : F.d.length = min nr nc

/-- The part of the block with the values from `c` on. -/
def rest (F : Fac R K) (c : Nat) (x y : Nat) : K :=
  ∑ k ∈ Finset.Ico c F.d.length, F.U x k * algebraMap R K (F.d.getD k 0) * star (F.V y k)

theorem vv' {nr nc : Nat} {M : Nat → Nat → K} {F : Fac R K} (h : IsSvd nr nc M F) {k k' : Nat} (hk : k < F.d.length) (hk' : k' < F.d.length) :
    ∑ j ∈ Finset.range nc, F.V j k * star (F.V j k') = if k = k' then 1 else 0 := by
  have := h.vv k' hk' k hk
  rw [show (if k = k' then (1 : K) else 0) = if k' = k then 1 else 0 by simp [eq_comm], ← this]
  exact Finset.sum_congr rfl fun j _ => mul_comm _ _

/-- The squares of the elements of that part sum to the squares of the values left out. -/
theorem rest_norm (hs : ∀ x : R, star (algebraMap R K x) = algebraMap R K x) {nr nc : Nat} {M : Nat → Nat → K} {F : Fac R K} (h : IsSvd nr nc M F) (c : Nat) :
    ∑ x ∈ Finset.range nr, ∑ y ∈ Finset.range nc, star (rest F c x y) * rest F c x y =
      ∑ k ∈ Finset.Ico c F.d.length, algebraMap R K (F.d.getD k 0 * F.d.getD k 0) := by
  have e1 : ∀ x y, star (rest F c x y) * rest F c x y = ∑ k ∈ Finset.Ico c F.d.length, ∑ k' ∈ Finset.Ico c F.d.length,
      (star (F.U x k) * F.U x k') * (F.V y k * star (F.V y k')) * (algebraMap R K (F.d.getD k 0) * algebraMap R K (F.d.getD k' 0)) := by
    intro x y
    unfold rest
    rw [star_sum, Finset.sum_mul_sum]
    refine Finset.sum_congr rfl fun k _ => Finset.sum_congr rfl fun k' _ => ?_
    rw [star_mul, star_mul, star_star, hs]
    ring
  simp only [e1]
  have e2 : ∑ x ∈ Finset.range nr, ∑ y ∈ Finset.range nc, ∑ k ∈ Finset.Ico c F.d.length, ∑ k' ∈ Finset.Ico c F.d.length,
      (star (F.U x k) * F.U x k') * (F.V y k * star (F.V y k')) * (algebraMap R K (F.d.getD k 0) * algebraMap R K (F.d.getD k' 0)) =
      ∑ k ∈ Finset.Ico c F.d.length, ∑ k' ∈ Finset.Ico c F.d.length, (∑ x ∈ Finset.range nr, star (F.U x k) * F.U x k') *
        (∑ y ∈ Finset.range nc, F.V y k * star (F.V y k')) * (algebraMap R K (F.d.getD k 0) * algebraMap R K (F.d.getD k' 0)) := by
    have : ∀ x, ∑ y ∈ Finset.range nc, ∑ k ∈ Finset.Ico c F.d.length, ∑ k' ∈ Finset.Ico c F.d.length,
        (star (F.U x k) * F.U x k') * (F.V y k * star (F.V y k')) * (algebraMap R K (F.d.getD k 0) * algebraMap R K (F.d.getD k' 0)) =
        ∑ k ∈ Finset.Ico c F.d.length, ∑ k' ∈ Finset.Ico c F.d.length, (star (F.U x k) * F.U x k') *
          (∑ y ∈ Finset.range nc, F.V y k * star (F.V y k')) * (algebraMap R K (F.d.getD k 0) * algebraMap R K (F.d.getD k' 0)) := by
      intro x
      rw [Finset.sum_comm]
      refine Finset.sum_congr rfl fun k _ => ?_
      rw [Finset.sum_comm]
      refine Finset.sum_congr rfl fun k' _ => ?_
      rw [Finset.mul_sum, Finset.sum_mul]
    simp only [this]
    rw [Finset.sum_comm]
    refine Finset.sum_congr rfl fun k _ => ?_
    rw [Finset.sum_comm]
    refine Finset.sum_congr rfl fun k' _ => ?_
    rw [Finset.sum_mul, Finset.sum_mul]
  rw [e2]
  refine Finset.sum_congr rfl fun k hk => ?_
  have hk2 := (Finset.mem_Ico.1 hk).2
  rw [Finset.sum_eq_single_of_mem k hk]
  · rw [h.uu k hk2 k hk2, vv' h hk2 hk2, if_pos rfl, one_mul, one_mul, map_mul]
  · intro k' hk' hne
    rw [vv' h hk2 (Finset.mem_Ico.1 hk').2, if_neg (Ne.symm hne)]
    ring

end

end Verif.Svd
