import Verif.Decomp.SvdMain
import Mathlib.Algebra.Star.Rat

/-!
# C68: examples and a counterexample
-/

namespace Verif.Svd

open Verif.Index (Index IndexSet)
open Verif.QDense
open Verif.Decomp (Opts)
open Verif.Tensor
open Verif.TagSet (TagSet)
open Verif.QN (IsQN norm)

/-- Rows `exI 1 1`, columns `exI 2 (-1)`, blocks `diag(2,1)` and `(3)`. -/
def exA : QDense ℚ := ⟨[⟨[0, 0], 0⟩, ⟨[1, 1], 4⟩], 5, fun a => if a = 0 then 2 else if a = 3 then 1 else if a = 4 then 3 else 0⟩

/-- The decomposition of a diagonal matrix with decreasing elements. -/
def exSvd (nr nc : Nat) (M : Nat → Nat → ℚ) : Fac ℚ ℚ :=
  ⟨fun i k => if i = k then 1 else 0, (List.range (min nr nc)).map fun k => M k k, fun i k => if i = k then 1 else 0⟩

/-- No tags. -/
def exT : TagSet := ⟨List.replicate 4 Verif.TagSet.Tag.empty, 0, 0⟩

theorem exA_wf : WF [exI 1 1, exI 2 (-1)] exA.offsets exA.size := by
  refine ⟨by unfold SortedOff exA; decide, ?_, rfl, rfl, rfl⟩
  intro o ho
  have : o = ⟨[0, 0], 0⟩ ∨ o = ⟨[1, 1], 4⟩ := by simpa [exA] using ho
  rcases this with rfl | rfl
  all_goals exact List.Forall₂.cons (by decide) (List.Forall₂.cons (by decide) List.Forall₂.nil)

theorem exA_ok : MatrixOK (fun _ => 1) (fun _ => 0) 100 exSvd false (exI 1 1) (exI 2 (-1)) exA where
  ne := by decide +kernel
  dirU := by decide
  dirV := by decide
  dimU := by decide
  dimV := by decide
  posU := by decide
  posV := by decide
  qns := ⟨_, exSectors⟩
  distU := by
    simp only [exI, List.map_cons, List.map_nil, List.pairwise_cons, List.mem_cons, List.not_mem_nil, or_false, forall_eq, false_imp_iff, implies_true, List.Pairwise.nil, and_true]
    exact ⟨Verif.TagSet.Tag.ofBytes [83, 122], by decide +kernel⟩
  distV := by
    simp only [exI, List.map_cons, List.map_nil, List.pairwise_cons, List.mem_cons, List.not_mem_nil, or_false, forall_eq, false_imp_iff, implies_true, List.Pairwise.nil, and_true]
    exact ⟨Verif.TagSet.Tag.ofBytes [83, 122], by decide +kernel⟩
  wf := exA_wf
  some := by simp [exA]
  flux := by
    intro o ho n
    have : o = ⟨[0, 0], 0⟩ ∨ o = ⟨[1, 1], 4⟩ := by simpa [exA] using ho
    rcases this with rfl | rfl <;> simp [fluxVal, exI]
  svd := by
    intro bs h B hB
    have h0 : getBlocks (exI 1 1) (exI 2 (-1)) false exA exA.offsets = .ok bs := h
    rw [getBlocks_map _ _ _ exA_wf.valid] at h0
    injection h0 with h0
    subst h0
    simp only [exA, List.map_cons, List.map_nil, List.mem_cons, List.not_mem_nil, or_false] at hB
    rcases hB with rfl | rfl
    all_goals exact ⟨by decide +kernel, by decide +kernel, by decide +kernel, by decide +kernel, by decide +kernel, by decide +kernel⟩
  fuelU := by decide
  fuelV := by decide
  maxU := by decide
  maxV := by decide

/-- The hypotheses of `C68_exact` hold of an example with two blocks. -/
example : ∃ out, svdQN 100 exSvd (1/1000000 : ℚ) none 7 8 exT exT [exI 1 1, exI 2 (-1)] (exI 1 1) (exI 2 (-1)) exA = some (.ok out) := by
  obtain ⟨out, _, _, _, h, _⟩ := C68_exact (fun _ => rfl) exA_ok (1/1000000 : ℚ) 7 8 exT exT
  exact ⟨out, h⟩

/-- The sizes of the sectors of the new index and the diagonal elements. -/
example : (svdQN 100 exSvd (1/1000000 : ℚ) none 7 8 exT exT [exI 1 1, exI 2 (-1)] (exI 1 1) (exI 2 (-1)) exA).map (fun r => r.map fun out =>
    (szs out.L, (List.range out.L.dim).map fun l => out.s.D.elt l l)) = some (.ok ([2, 1], [.ok 2, .ok 1, .ok 3])) := by decide +kernel

/-- The hypotheses of `C68_truncated_partial` hold of the same matrix and at most two values. -/
example : ∃ out, svdQN 100 exSvd (1/1000000 : ℚ) (some ⟨2, 1, 0, false, true, false⟩) 7 8 exT exT [exI 1 1, exI 2 (-1)] (exI 1 1) (exI 2 (-1)) exA = some (.ok out) ∧ out.L.dim = 2 := by
  have hsp : ∀ bs, getBlocks (exI 1 1) (exI 2 (-1)) false exA exA.offsets = .ok bs → spectrum exSvd bs = [9, 4, 1] := by
    intro bs h
    rw [getBlocks_map _ _ _ exA_wf.valid] at h
    injection h with h
    subst h
    have h1 : ((exA.offsets.map (mkBlock (exI 1 1) (exI 2 (-1)) false exA)).map fun B => (exSvd B.nr B.nc B.M).d.map fun x => x * x).flatten = [4, 1, 9] := by decide +kernel
    unfold spectrum
    rw [h1]
    refine List.Perm.eq_of_pairwise (le := fun a b : ℚ => b ≤ a) (fun a b _ _ h1 h2 => le_antisymm h2 h1) ?_ ?_ ((List.mergeSort_perm _ _).trans ((List.Perm.swap _ _ _).symm.trans (show List.Perm ([1, 4, 9] : List ℚ) [9, 4, 1] from (List.reverse_perm _).symm)))
    · have := List.pairwise_mergeSort (le := fun a b : ℚ => decide (b ≤ a)) (by intro a b c; simp; exact fun h1 h2 => le_trans h2 h1) (by intro a b; simp; exact le_total _ _) [4, 1, 9]
      exact this.imp fun h => by simpa using h
    · decide +kernel
  have htr : Verif.Decomp.truncate (1/1000000 : ℚ) ⟨2, 1, 0, false, true, false⟩ [9, 4, 1] = .ok ⟨[9, 4], 9/14, 4 - 4/1000, 4 + 4/1000, 1⟩ := by decide +kernel
  obtain ⟨bs, t, out, _, _, _, h1, h2, h3, _, _, _, _, _, h4, _⟩ := C68_truncated_partial (fun _ => rfl) exA_ok (eps := (1/1000000 : ℚ)) (by norm_num) ⟨2, 1, 0, false, true, false⟩ (by decide) (by decide)
    (by
      intro bs t hb ht
      rw [hsp bs hb, htr] at ht
      injection ht with ht
      subst ht
      rw [hsp bs hb]
      exact ⟨by simp, by norm_num⟩) 7 8 exT exT
  rw [hsp bs h1, htr] at h2
  injection h2 with h2
  subst h2
  exact ⟨out, h3, h4⟩

/-- Two sectors of size 1 with the same quantum number. -/
def exDouble (id : Nat) (dir : Int) : Index := ⟨id, 2, dir, exT, [(exQ 1, 1), (exQ 1, 1)]⟩

/-- One sector of size 1. -/
def exSingle (id : Nat) (dir : Int) : Index := ⟨id, 1, dir, exT, [(exQ 1, 1)]⟩

/-- **C68 is false of `svdOrd2` when an index has two sectors with the same quantum number**: of the matrix `(1 1)`, whose two elements are in different blocks, `U` gets two equal
columns and both singular values are 1. `svd` itself combines the indices first, which joins such sectors. -/
theorem C68_equal_counterexample :
    (svdQN 100 exSvd (1/1000000 : ℚ) none 7 8 exT exT [exSingle 1 1, exDouble 2 (-1)] (exSingle 1 1) (exDouble 2 (-1)) ⟨[⟨[0, 0], 0⟩, ⟨[0, 1], 1⟩], 2, fun _ => 1⟩).map
      (fun r => r.map fun out => ((List.range 2).map fun l => getElt out.s.U [exSingle 1 1, out.L.dag] [0, l], (List.range 2).map fun l => out.s.D.elt l l)) =
      some (.ok ([.ok 1, .ok 1], [.ok 1, .ok 1])) := by
  decide +kernel

end Verif.Svd
