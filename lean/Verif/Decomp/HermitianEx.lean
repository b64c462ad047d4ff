import Verif.Decomp.HermitianC78
import Verif.Decomp.SvdEx
import Mathlib.Analysis.Matrix.Spectrum

/-!
# C78: the hypotheses can be met
-/

namespace Verif.Svd

open Verif.Index (Index IndexSet)
open Verif.QDense
open Verif.Decomp (Opts)
open Verif.Tensor
open Verif.TagSet (TagSet)
open Verif.QN (IsQN norm)

/-- Every hermitian complex matrix has a decomposition as the parameter `herm` is required to return it. -/
theorem exists_herm (n : Nat) (M : Nat → Nat → ℂ) (h : ∀ i < n, ∀ j < n, M j i = star (M i j)) : ∃ F : HFac ℝ ℂ, IsHerm n M F := by
  let A : Matrix (Fin n) (Fin n) ℂ := Matrix.of fun i j => M i.1 j.1
  have hA : A.IsHermitian := by
    ext i j
    rw [Matrix.conjTranspose_apply]
    exact (h j.1 j.2 i.1 i.2).symm
  let e : Fin n ≃ Fin n := (finCongr (Fintype.card_fin n).symm).trans (Fintype.equivOfCardEq (Fintype.card_fin _))
  let V : Matrix (Fin n) (Fin n) ℂ := hA.eigenvectorUnitary
  have hV : star V * V = 1 := (Matrix.mem_unitaryGroup_iff').1 hA.eigenvectorUnitary.2
  let U : Nat → Nat → ℂ := fun i k => if h : i < n ∧ k < n then V ⟨i, h.1⟩ (e ⟨k, h.2⟩) else 0
  have hU : ∀ i k : Fin n, U i.1 k.1 = V i (e k) := fun i k => by simp [U]
  have hval : ∀ k : Fin n, (List.ofFn fun k : Fin n => hA.eigenvalues (e k)).getD k.1 0 = hA.eigenvalues (e k) := by
    intro k
    rw [List.getD_eq_getElem?_getD, List.getElem?_eq_getElem (by simp)]
    simp
  refine ⟨⟨U, List.ofFn fun k : Fin n => hA.eigenvalues (e k)⟩, by simp, ?_, ?_, ?_⟩
  · intro i hi j hj
    have h1 : A = V * Matrix.diagonal (fun k => ((hA.eigenvalues k : ℝ) : ℂ)) * star V := by
      have := hA.spectral_theorem
      rw [Unitary.conjStarAlgAut_apply] at this
      exact this
    have h2 := congrFun (congrFun h1 ⟨i, hi⟩) ⟨j, hj⟩
    rw [Matrix.mul_apply] at h2
    simp only [Matrix.mul_diagonal, Matrix.star_apply] at h2
    rw [show M i j = A ⟨i, hi⟩ ⟨j, hj⟩ from rfl, h2, ← e.sum_comp, ← Fin.sum_univ_eq_sum_range (fun k => U i k * algebraMap ℝ ℂ ((List.ofFn fun k : Fin n => hA.eigenvalues (e k)).getD k 0) * star (U j k))]
    refine Finset.sum_congr rfl fun k _ => ?_
    rw [hval k, hU ⟨i, hi⟩ k, hU ⟨j, hj⟩ k]
    rfl
  · intro k hk k' hk'
    have h2 := congrFun (congrFun hV (e ⟨k, hk⟩)) (e ⟨k', hk'⟩)
    rw [Matrix.mul_apply, Matrix.one_apply] at h2
    simp only [Matrix.star_apply, EmbeddingLike.apply_eq_iff_eq, Fin.mk.injEq] at h2
    rw [← h2, ← Fin.sum_univ_eq_sum_range (fun i => star (U i k) * U i k')]
    refine Finset.sum_congr rfl fun i _ => ?_
    rw [hU i ⟨k, hk⟩, hU i ⟨k', hk'⟩]
  · have hanti : Antitone fun k : Fin n => hA.eigenvalues (e k) := by
      intro a b hab
      simp only [Matrix.IsHermitian.eigenvalues, e, Equiv.trans_apply, Equiv.symm_apply_apply]
      exact hA.eigenvalues₀_antitone (by simpa using hab)
    exact hanti.sortedGE_ofFn.pairwise

/-- The decomposition of a diagonal matrix with decreasing elements. -/
noncomputable def exHerm (n : Nat) (M : Nat → Nat → ℂ) : HFac ℝ ℂ := ⟨fun i k => if i = k then 1 else 0, (List.range n).map fun k => (M k k).re⟩

theorem exHerm_ok {n : Nat} {M : Nat → Nat → ℂ} (d : Nat → ℝ) (h : ∀ i < n, ∀ j < n, M i j = if i = j then (d i : ℂ) else 0) (hd : ∀ i j, i < j → j < n → d j ≤ d i) : IsHerm n M (exHerm n M) := by
  have hg : ∀ k < n, (exHerm n M).d.getD k 0 = d k := by
    intro k hk
    simp only [exHerm]
    rw [List.getD_eq_getElem?_getD, List.getElem?_eq_getElem (by simpa using hk)]
    simp [h k hk k hk]
  refine ⟨by simp [exHerm], ?_, ?_, ?_⟩
  · intro i hi j hj
    have : ∀ k ∈ Finset.range n, (exHerm n M).U i k * algebraMap ℝ ℂ ((exHerm n M).d.getD k 0) * star ((exHerm n M).U j k) = if k = i then (if i = j then (d i : ℂ) else 0) else 0 := by
      intro k hk
      rw [hg k (Finset.mem_range.1 hk)]
      simp only [exHerm]
      by_cases h1 : i = k
      · subst h1
        by_cases h2 : i = j
        · subst h2; simp
        · simp [h2, Ne.symm h2]
      · simp [h1, Ne.symm h1]
    rw [Finset.sum_congr rfl this, Finset.sum_ite_eq' (Finset.range n) i, if_pos (Finset.mem_range.2 hi), h i hi j hj]
  · intro k hk k' hk'
    have : ∀ i ∈ Finset.range n, star ((exHerm n M).U i k) * (exHerm n M).U i k' = if i = k then (if k = k' then 1 else 0) else 0 := by
      intro i _
      simp only [exHerm]
      by_cases h1 : i = k
      · subst h1; simp
      · simp [h1]
    rw [Finset.sum_congr rfl this, Finset.sum_ite_eq' (Finset.range n) k, if_pos (Finset.mem_range.2 hk)]
  · rw [List.pairwise_iff_getElem]
    intro i j hi hj hij
    have hj' : j < n := by simpa [exHerm] using hj
    have e1 : (exHerm n M).d[i] = d i := by
      have := hg i (by omega)
      rwa [List.getD_eq_getElem?_getD, List.getElem?_eq_getElem hi] at this
    have e2 : (exHerm n M).d[j] = d j := by
      have := hg j hj'
      rwa [List.getD_eq_getElem?_getD, List.getElem?_eq_getElem hj] at this
    rw [e1, e2]
    exact hd i j hij hj'

/-- Blocks `diag(2,1)` and `(3)`. -/
def exH : QDense ℂ := ⟨[⟨[0, 0], 0⟩, ⟨[1, 1], 4⟩], 5, fun a => if a = 0 then 2 else if a = 3 then 1 else if a = 4 then 3 else 0⟩

/-- The block `(3)` only. -/
def exH1 : QDense ℂ := ⟨[⟨[1, 1], 0⟩], 1, fun _ => 3⟩

theorem exH_wf : WF [exI 1 1, (exI 1 1).dag.prime 1] exH.offsets exH.size := by
  refine ⟨by unfold SortedOff exH; decide, ?_, rfl, rfl, rfl⟩
  intro o ho
  have : o = ⟨[0, 0], 0⟩ ∨ o = ⟨[1, 1], 4⟩ := by simpa [exH] using ho
  rcases this with rfl | rfl
  all_goals exact List.Forall₂.cons (by decide) (List.Forall₂.cons (by decide) List.Forall₂.nil)

theorem exH1_wf : WF [exI 1 1, (exI 1 1).dag.prime 1] exH1.offsets exH1.size := by
  refine ⟨by unfold SortedOff exH1; decide, ?_, rfl, rfl⟩
  intro o ho
  have : o = ⟨[1, 1], 0⟩ := by simpa [exH1] using ho
  subst this
  exact List.Forall₂.cons (by decide) (List.Forall₂.cons (by decide) List.Forall₂.nil)

theorem exSectors1 : ∃ u, SectorsOK (fun _ => 1) u [exI 1 1] := by
  refine ⟨_, exSectors.1, fun I hI => exSectors.2 I ?_⟩
  simp only [List.mem_singleton] at hI
  simp [hI]

theorem exDist : ((exI 1 1).qns.map (·.1)).Pairwise fun a b => ∃ n, a.val n ≠ b.val n := exA_ok.distU

theorem exH_ok : HermOK (fun _ => 1) 100 exHerm false (exI 1 1) 1 exH where
  ne := by decide +kernel
  dir := by decide
  dim := by decide
  pos := by decide
  qns := exSectors1
  dist := exDist
  wf := exH_wf
  some := by simp [exH]
  flux := by
    intro o ho n
    have : o = ⟨[0, 0], 0⟩ ∨ o = ⟨[1, 1], 4⟩ := by simpa [exH] using ho
    rcases this with rfl | rfl <;> simp [fluxVal, exI, Index.dag, Index.prime, Verif.QN.norm]
  herm := by
    intro bs h B hB
    have h0 : getBlocks (exI 1 1) ((exI 1 1).dag.prime 1) false exH exH.offsets = .ok bs := h
    rw [getBlocks_map _ _ _ exH_wf.valid] at h0
    injection h0 with h0
    subst h0
    simp only [exH, List.map_cons, List.map_nil, List.mem_cons, List.not_mem_nil, or_false] at hB
    rcases hB with rfl | rfl
    · refine exHerm_ok (fun k => if k = 0 then 2 else 1) ?_ ?_
      · intro i hi j hj
        have hi : i < 2 := hi
        have hj : j < 2 := hj
        interval_cases i <;> interval_cases j <;> simp [mkBlock, bsize, szs, exI]
      · intro i j hij hj
        have hj : j < 2 := hj
        interval_cases j
        · omega
        · interval_cases i; norm_num
    · refine exHerm_ok (fun _ => 3) ?_ ?_
      · intro i hi j hj
        have hi : i < 1 := hi
        have hj : j < 1 := hj
        interval_cases i; interval_cases j; simp [mkBlock, bsize, szs, exI]
      · intro i j hij hj
        have hj : j < 1 := hj
        omega
  fuel := by decide
  max := by decide

theorem exH1_ok : HermOK (fun _ => 1) 100 exHerm false (exI 1 1) 1 exH1 where
  ne := by decide +kernel
  dir := by decide
  dim := by decide
  pos := by decide
  qns := exSectors1
  dist := exDist
  wf := exH1_wf
  some := by simp [exH1]
  flux := by
    intro o ho n
    have : o = ⟨[1, 1], 0⟩ := by simpa [exH1] using ho
    subst this
    simp [fluxVal, exI, Index.dag, Index.prime, Verif.QN.norm]
  herm := by
    intro bs h B hB
    have h0 : getBlocks (exI 1 1) ((exI 1 1).dag.prime 1) false exH1 exH1.offsets = .ok bs := h
    rw [getBlocks_map _ _ _ exH1_wf.valid] at h0
    injection h0 with h0
    subst h0
    simp only [exH1, List.map_cons, List.map_nil, List.mem_cons, List.not_mem_nil, or_false] at hB
    subst hB
    refine exHerm_ok (fun _ => 3) ?_ ?_
    · intro i hi j hj
      have hi : i < 1 := hi
      have hj : j < 1 := hj
      interval_cases i; interval_cases j; simp [mkBlock]
    · intro i j hij hj
      have hj : j < 1 := hj
      omega
  fuel := by decide
  max := by decide

/-- The hypotheses of `C78_diag` and `C78_exp_partial` hold of an example with two blocks. -/
example : ∃ out, diagQN 100 exHerm (1/1000000 : ℝ) none 7 exT [exI 1 1, (exI 1 1).dag.prime 1] (exI 1 1) 1 exH = some (.ok out) ∧
    ∀ (t : ℂ) (i j : Fin 3), expElem (fun x : ℝ => Complex.exp (t * x)) (exI 1 1) out i.1 j.1 = NormedSpace.exp (t • matH false (exI 1 1) 1 exH) i j := by
  refine C78_exp_partial exH_ok ?_ _ 7 exT
  intro a ha
  have ha : a < 2 := ha
  interval_cases a
  · exact ⟨⟨[0, 0], 0⟩, by simp [exH], rfl⟩
  · exact ⟨⟨[1, 1], 4⟩, by simp [exH], rfl⟩

/-- Those of `C78_absent_counterexample` hold of the matrix with one block: the exponential of `diag(0,0,3)` gets the zero row 0. -/
example : ∃ out, diagQN 100 exHerm (1/1000000 : ℝ) none 7 exT [exI 1 1, (exI 1 1).dag.prime 1] (exI 1 1) 1 exH1 = some (.ok out) ∧
    expElem (fun x : ℝ => Complex.exp (1 * x)) (exI 1 1) out 0 0 = 0 := by
  obtain ⟨out, h1, h2, _⟩ := C78_absent_counterexample exH1_ok (a := 0) (by decide) (by simp [exH1]) (1/1000000 : ℝ) 7 exT
  exact ⟨out, h1, h2 _ 0 (by decide) 0 (by decide)⟩

/-- The decomposition of a rational diagonal matrix with decreasing elements. -/
def exHermQ (n : Nat) (M : Nat → Nat → ℚ) : HFac ℚ ℚ := ⟨fun i k => if i = k then 1 else 0, (List.range n).map fun k => M k k⟩

/-- The sizes of the sectors of the new index, the diagonal elements and the rows of `U`, for the matrix with one block. -/
example : (diagQN 100 exHermQ (1/1000000 : ℚ) none 7 exT [exI 1 1, (exI 1 1).dag.prime 1] (exI 1 1) 1 ⟨[⟨[1, 1], 0⟩], 1, fun _ => 3⟩).map (fun r => r.map fun out =>
    (szs out.L, (List.range out.L.dim).map fun l => out.D.elt l l, (List.range 3).map fun i => getElt out.U [(exI 1 1).dag, out.L.dag] [i, 0])) =
    some (.ok ([1], [.ok 3], [.ok 0, .ok 0, .ok 1])) := by decide +kernel

theorem exAH_wf : WF [exI 1 1, (exI 1 1).dag.prime 1] exA.offsets exA.size := exH_wf

theorem exAQ_ok : HermOK (fun _ => 1) 100 exHermQ false (exI 1 1) 1 exA where
  ne := by decide +kernel
  dir := by decide
  dim := by decide
  pos := by decide
  qns := exSectors1
  dist := exDist
  wf := exAH_wf
  some := by simp [exA]
  flux := by
    intro o ho n
    have : o = ⟨[0, 0], 0⟩ ∨ o = ⟨[1, 1], 4⟩ := by simpa [exA] using ho
    rcases this with rfl | rfl <;> simp [fluxVal, exI, Index.dag, Index.prime, Verif.QN.norm]
  herm := by
    intro bs h B hB
    have h0 : getBlocks (exI 1 1) ((exI 1 1).dag.prime 1) false exA exA.offsets = .ok bs := h
    rw [getBlocks_map _ _ _ exAH_wf.valid] at h0
    injection h0 with h0
    subst h0
    simp only [exA, List.map_cons, List.map_nil, List.mem_cons, List.not_mem_nil, or_false] at hB
    rcases hB with rfl | rfl
    all_goals exact ⟨by decide +kernel, by decide +kernel, by decide +kernel, by decide +kernel⟩
  fuel := by decide
  max := by decide

/-- The hypotheses of `C78_truncated_partial` hold of the matrix with blocks `diag(2,1)` and `(3)` and at most two values. -/
example : ∃ out, diagQN 100 exHermQ (1/1000000 : ℚ) (some ⟨2, 1, 0, false, true, false⟩) 7 exT [exI 1 1, (exI 1 1).dag.prime 1] (exI 1 1) 1 exA = some (.ok out) ∧ out.L.dim = 2 := by
  have hsp : ∀ bs, getBlocks (exI 1 1) ((exI 1 1).dag.prime 1) false exA exA.offsets = .ok bs → spectrumH exHermQ bs = [3, 2, 1] := by
    intro bs h
    rw [getBlocks_map _ _ _ exAH_wf.valid] at h
    injection h with h
    subst h
    have h1 : ((exA.offsets.map (mkBlock (exI 1 1) ((exI 1 1).dag.prime 1) false exA)).map fun B => (exHermQ B.nr B.M).d).flatten = [2, 1, 3] := by decide +kernel
    unfold spectrumH
    rw [h1]
    refine List.Perm.eq_of_pairwise (le := fun a b : ℚ => b ≤ a) (fun a b _ _ h1 h2 => le_antisymm h2 h1) ?_ ?_ ((List.mergeSort_perm _ _).trans ((List.Perm.swap _ _ _).symm.trans (show List.Perm ([1, 2, 3] : List ℚ) [3, 2, 1] from (List.reverse_perm _).symm)))
    · have := List.pairwise_mergeSort (le := fun a b : ℚ => decide (b ≤ a)) (by intro a b c; simp; exact fun h1 h2 => le_trans h2 h1) (by intro a b; simp; exact le_total _ _) [2, 1, 3]
      exact this.imp fun h => by simpa using h
    · decide +kernel
  have htr : Verif.Decomp.truncate (1/1000000 : ℚ) ⟨2, 1, 0, false, true, false⟩ [3, 2, 1] = .ok ⟨[3, 2], 3/6, 2 - 2/1000, 2 + 2/1000, 1⟩ := by decide +kernel
  obtain ⟨bs, t, out, _, _, h1, h2, h3, _, _, _, _, h4, _⟩ := C78_truncated_partial exAQ_ok (eps := (1/1000000 : ℚ)) (by norm_num) ⟨2, 1, 0, false, true, false⟩ (by decide) (by decide)
    (by
      intro bs t hb ht
      rw [hsp bs hb, htr] at ht
      injection ht with ht
      subst ht
      rw [hsp bs hb]
      exact ⟨by simp, by norm_num⟩)
    (by
      intro bs hb
      rw [hsp bs hb]
      norm_num) 7 exT
  rw [hsp bs h1, htr] at h2
  injection h2 with h2
  subst h2
  exact ⟨out, h3, h4⟩

end Verif.Svd
