import Verif.MPS.InitStateD
import Verif.QDense.FluxEx

/-! # Product states: examples, and where C101 fails -/

namespace Verif.MPS

open Verif.Index (Index IndexSet)
open Verif.Index.IndexSet (keys Key replTemp)
open Verif.QDense (QTensor exI exQ exQ_ok)
open Verif.Net (DTensor)
open Verif.Tensor

/-- Names of links: ids from 100. -/
def exLnk (i : Nat) : Nat × Verif.TagSet.TagSet := (100 + i, ⟨List.replicate 4 Verif.TagSet.Tag.empty, 0, 0⟩)

/-- Three sites with `Sz`; the values have `Sz = 1`, `-1` and `1`. -/
def exVals : List IVal := [(exI 1 1, 0), (exI 2 1, 2), (exI 3 1, 1)]

theorem exVals_ok : ∀ v ∈ exVals, SiteOK (fun _ => 1) [Verif.TagSet.Tag.ofBytes [83, 122]] 100 v := by
  have h : ∀ i e, e < 3 → SiteOK (fun _ => 1) [Verif.TagSet.Tag.ofBytes [83, 122]] 100 (exI i 1, e) := by
    intro i e he
    refine ⟨Nat.succ_pos 1, ?_, rfl, ?_, he, show 2 < 100 by decide, show (2 : Int) ≤ offMax by decide⟩
    · intro s hs
      have : s = (exQ 1, 2) ∨ s = (exQ (-1), 1) := by simpa [exI] using hs
      rcases this with rfl | rfl <;> decide
    · intro s hs
      have : s = (exQ 1, 2) ∨ s = (exQ (-1), 1) := by simpa [exI] using hs
      rcases this with rfl | rfl
      · exact ⟨exQ_ok _ (by simp), by decide⟩
      · exact ⟨exQ_ok _ (by simp), by decide⟩
  intro v hv
  simp only [exVals, List.mem_cons, List.not_mem_nil, or_false] at hv
  rcases hv with rfl | rfl | rfl <;> exact h _ _ (by decide)

/-- The hypotheses of `C101_product_state_partial` hold; the total quantum number is 1. -/
example : ∃ A : List (QTensor Int), initQ 100 exLnk exVals = some (.ok A) ∧ checkQNs A = .ok true ∧
    ∃ q, totalQN A 0 2 = .ok q ∧ q.val (Verif.TagSet.Tag.ofBytes [83, 122]) = 1 := by
  obtain ⟨A, h1, _, _, ⟨q, h2, h3⟩, h4⟩ := C101_product_state_partial (K := Int) (lnk := exLnk) (M := fun _ => 1)
    (u := [Verif.TagSet.Tag.ofBytes [83, 122]]) (by decide) (vs := exVals) (by decide) exVals_ok (by decide +kernel) (ext := fun _ => 1) fun _ => rfl
  refine ⟨A, h1, h4, q, h2, ?_⟩
  rw [h3]
  decide +kernel

/-- A site of dimension 2 without quantum numbers. -/
def exS (i : Nat) : Index := ⟨i, 2, 1, ⟨List.replicate 4 Verif.TagSet.Tag.empty, 0, 0⟩, []⟩

/-- Sites have ids below 100. -/
def exExtD (k : Key) : Nat := if k.1 < 100 then 2 else 1

theorem exLinkD (n : Nat) : LinkD exExtD (fun i => exLnk (n + i)) :=
  ⟨fun i => by simp [exLnk], fun i => by simp [exLnk], fun i => by simp [exLnk, replTemp], fun i => by
    have : ¬ 100 + (n + i) < 100 := by omega
    simp [exExtD, linkKey, exLnk]⟩

theorem exSiteD {i e : Nat} (hi : i < 100) (h0 : i ≠ 0) (he : e < 2) : SiteD exExtD (exS i, e) :=
  ⟨⟨Or.inl rfl, h0, rfl, by simp [exS], by simp [exS, replTemp]⟩, by simp [exS, exExtD, Index.key, hi], he⟩

/-- Fresh ids for the links of the bra. -/
def exNew (k : Key) : Nat := k.1 + 1000

/-- The hypotheses of `C101_overlap_partial` hold: up-down-up and up-up-up are orthogonal. -/
example : ∃ psi phi : List (DTensor Int), initD (fun i => exLnk (0 + i)) [(exS 1, 0), (exS 2, 1), (exS 3, 0)] = .ok psi ∧
    initD (fun i => exLnk (20 + i)) [(exS 1, 0), (exS 2, 0), (exS 3, 0)] = .ok phi ∧
    innerC 100 (fun _ => 77) (fun _ => 78) (RingHom.id Int) exNew psi phi = some (.ok 0) :=
  C101_overlap_partial (d := 2) (fuel := 100) (newid := exNew) (lnk := fun i => exLnk (0 + i)) (lnk' := fun i => exLnk (20 + i))
    (vs := [(exS 1, 0), (exS 2, 1), (exS 3, 0)]) (ws := [(exS 1, 0), (exS 2, 0), (exS 3, 0)]) (exLinkD 0) (exLinkD 20) (by decide)
    (by
      intro v hv
      simp only [List.mem_cons, List.not_mem_nil, or_false] at hv
      rcases hv with rfl | rfl | rfl <;> exact exSiteD (by decide) (by decide) (by decide))
    (by
      intro v hv
      simp only [List.mem_cons, List.not_mem_nil, or_false] at hv
      rcases hv with rfl | rfl | rfl <;> exact exSiteD (by decide) (by decide) (by decide))
    rfl (by decide +kernel) (by decide +kernel) (by decide +kernel) (RingHom.id Int)
    ⟨by decide +kernel, by decide +kernel, by decide +kernel, by decide +kernel⟩ (by decide) (fun k => by unfold exExtD; split <;> decide) (by decide) (by decide) _ _

/-- **C101 fails for one site.** With quantum numbers the null index `a[0]` is dereferenced; without, the tensor has a second
index, and `siteInds` throws. -/
theorem C101_one_site_counterexample :
    initQ (K := Int) 100 exLnk [(exI 1 1, 0)] = some .ub ∧
    ∃ A : List (DTensor Int), initD exLnk [(exS 1, 0)] = .ok A ∧ siteIndsFrom [] A [] = .throw := by
  refine ⟨?_, _, rfl, by decide +kernel⟩
  have h : (initQ (K := Int) 100 exLnk [(exI 1 1, 0)]).map (fun r => r.map fun _ => ()) = some .ub := by decide +kernel
  cases e : initQ (K := Int) 100 exLnk [(exI 1 1, 0)] with
  | none => rw [e] at h; cases h
  | some r => cases r <;> rw [e] at h <;> first | rfl | cases h

/-- **C101 fails for sites with arrow `In`.** `qn(initState(i))` leaves the arrow out: for a site with `Sz = 1` and arrow
`Out` and one with `Sz = 1` and arrow `In`, `totalQN` is 2, the flux of the product of the tensors is 0, and `checkQNs` is
false. -/
theorem C101_arrow_counterexample : ((initQ (K := Int) 100 exLnk [(exI 1 1, 0), (exI 2 (-1), 0)]).map fun r => r.bind fun A =>
    (totalQN A 0 2).bind fun q => (checkQNs A).bind fun b => (totalQN A 0 3).map fun q' =>
      (q.val (Verif.TagSet.Tag.ofBytes [83, 122]), b, q'.val (Verif.TagSet.Tag.ofBytes [83, 122]))) = some (.ok (2, false, 0)) := by
  decide +kernel

end Verif.MPS
