import Verif.QDense.FluxC82

/-!
# Property C82: examples and where it fails
-/

namespace Verif.QDense

open Verif.Index (Index IndexSet)
open Verif.Index.IndexSet (keys Key)
open Verif.Tensor
open Verif.QN (IsQN norm)

/-- The sectors of every index of the examples. -/
def exEnv : Key → List (Verif.QN.QN × Nat) := fun _ => [(exQ 1, 2), (exQ (-1), 1)]

theorem exGoodIs {is : IndexSet} (hnd : (keys is).Nodup)
    (h : ∀ I ∈ is, I.qns = [(exQ 1, 2), (exQ (-1), 1)] ∧ (I.dir = 1 ∨ I.dir = -1)) :
    GoodIs (fun _ => 1) [Verif.TagSet.Tag.ofBytes [83, 122]] exEnv is := by
  refine ⟨hnd, fun I hI => (h I hI).1, ?_, ?_, fun I hI => (h I hI).2, by decide, ?_⟩
  · intro I hI s hs
    rw [(h I hI).1] at hs
    have : s = (exQ 1, 2) ∨ s = (exQ (-1), 1) := by simpa using hs
    rcases this with rfl | rfl <;> decide
  · intro I hI; unfold Index.nblock; rw [(h I hI).1]; decide
  · intro I hI q hq
    rw [(h I hI).1] at hq
    have : q = (exQ 1, 2) ∨ q = (exQ (-1), 1) := by simpa using hq
    rcases this with rfl | rfl
    · exact ⟨exQ_ok _ (by simp), by decide⟩
    · exact ⟨exQ_ok _ (by simp), by decide⟩

theorem exGood2 : GoodIs (fun _ => 1) [Verif.TagSet.Tag.ofBytes [83, 122]] exEnv [exI 1 1, exI 2 (-1)] :=
  exGoodIs (by decide) (by
    intro I hI
    have : I = exI 1 1 ∨ I = exI 2 (-1) := by simpa using hI
    rcases this with rfl | rfl <;> exact ⟨rfl, by decide⟩)

/-- A tensor of flux zero with the single block (1,1). -/
def fluxT : QTensor Int := ⟨[exI 1 1, exI 2 (-1)], some exD⟩

theorem fluxT_good : Good (fun _ => 1) [Verif.TagSet.Tag.ofBytes [83, 122]] exEnv 100 fluxT := by
  refine ⟨exGood2, by simp [fluxT], ?_, ?_⟩
  · intro d hd; cases hd; exact exD_wf
  · intro d hd; cases hd
    intro o ho o' ho' n
    have h1 : o = ⟨[1, 1], 0⟩ := by simpa [exD] using ho
    have h2 : o' = ⟨[1, 1], 0⟩ := by simpa [exD] using ho'
    rw [h1, h2]

/-- `C82_set`: an element of flux zero in a missing block is accepted, one of flux 2 throws. -/
example : (∃ d', setVals 100 fluxT [1, 0] 5 = some (.ok ⟨fluxT.is, some d'⟩)) ∧ setVals 100 fluxT [0, 2] 5 = some .throw := by
  have hv : ∀ a b, a < 3 → b < 3 → Valid (fluxT.is.map fun I => (I.qns.map (·.2)).sum) [a, b] := fun a b ha hb =>
    List.Forall₂.cons ha (List.Forall₂.cons hb List.Forall₂.nil)
  constructor
  · obtain ⟨div, h1, h2, _⟩ := C82_set fluxT_good (d := exD) rfl (hv 1 0 (by decide) (by decide)) 5
    have hdiv : div = fluxOf fluxT.is [1, 1] Verif.QN.QN.default := by
      have e : calcDiv fluxT.is exD = .ok (fluxOf fluxT.is [1, 1] Verif.QN.QN.default) := by decide +kernel
      have := e.symm.trans h1
      cases this; rfl
    obtain ⟨d', g, _⟩ := h2 (by
      intro n
      obtain ⟨_, k2⟩ := fluxOf_default exGood2.ok (b := [1, 1]) (List.Forall₂.cons (by decide) (List.Forall₂.cons (by decide) List.Forall₂.nil))
      rw [hdiv, show fluxT.is = [exI 1 1, exI 2 (-1)] from rfl, k2]
      simp [eltVal, fluxVal, exI, sectorQN])
    exact ⟨d', g⟩
  · obtain ⟨div, h1, _, h3⟩ := C82_set fluxT_good (d := exD) rfl (hv 0 2 (by decide) (by decide)) 5
    apply h3
    refine ⟨Verif.TagSet.Tag.ofBytes [83, 122], ?_⟩
    have e : calcDiv fluxT.is exD = .ok (fluxOf fluxT.is [1, 1] Verif.QN.QN.default) := by decide +kernel
    have := e.symm.trans h1
    cases this
    decide +kernel

/-- A program with storage created by `set`, a copy and `dag`; all statements are as `FineProg` asks and
it ends. -/
def exProg : List (Instr Int) :=
  [.new 0 [exI 1 1, exI 2 (-1)], .set 0 [0, 2] 3, .copy 1 0, .dag 1, .set 1 [1, 2] 4, .scale 0 2]

def exStart : Nat → QTensor Int := fun _ => ⟨[], none⟩

theorem exStart_good (r : Nat) : Good (fun _ => 1) [Verif.TagSet.Tag.ofBytes [83, 122]] exEnv 100 (exStart r) :=
  ⟨exGoodIs (by simp [exStart, keys]) (by simp [exStart]),
    fun _ => ⟨by simp [exStart, nb], by simp [exStart, nb, offMax]⟩,
    (by intro d hd; cases hd), (by intro d hd; cases hd)⟩

/-- What the examples show of a tensor: arrows, blocks, and the elements `l`. -/
def view (T : QTensor Int) (l : List (List Nat)) : List Int × List Block × List (Option Int) :=
  match T.store with
  | some d => (T.is.map (·.dir), d.offsets.map (·.block), l.map fun ind =>
      match getElt d T.is ind with
      | .ok x => some x
      | _ => none)
  | none => (T.is.map (·.dir), [], [])

set_option synthInstance.maxSize 1000 in
theorem exProg_ends : (exec id 100 exProg exStart).map (fun r => r.map fun s =>
    (view (s 0) [[0, 2], [1, 2]], view (s 1) [[0, 2], [1, 2]])) =
    some (.ok (([1, -1], [[0, 1]], [some 6, some 0]), ([-1, 1], [[0, 1]], [some 3, some 4]))) := by
  decide +kernel

/-- The hypotheses of `C82_program_partial` are met by `exProg`. -/
theorem exProg_fine : FineProg (fun _ => 1) [Verif.TagSet.Tag.ofBytes [83, 122]] exEnv id 100 exProg exStart := by
  have hv : ∀ a b, a < 3 → b < 3 → ∀ di dj, Valid ([exI 1 di, exI 2 dj].map fun I => (I.qns.map (·.2)).sum) [a, b] :=
    fun a b ha hb di dj => List.Forall₂.cons ha (List.Forall₂.cons hb List.Forall₂.nil)
  refine ⟨⟨exGood2, by decide, by decide⟩, ?_⟩
  intro T0 h0; cases h0
  refine ⟨⟨by simp, fun _ => hv 0 2 (by decide) (by decide) _ _⟩, ?_⟩
  intro T1 h1
  have hT1 : T1.is = [exI 1 1, exI 2 (-1)] := by
    have h1' : setVals 100 (⟨[exI 1 1, exI 2 (-1)], none⟩ : QTensor Int) [0, 2] 3 = some (.ok T1) := h1
    unfold setVals at h1'
    rw [if_neg (by simp)] at h1'
    obtain ⟨d, _, h⟩ := Run.bind_eq_ok.1 h1'
    obtain ⟨_, _, h⟩ := Run.bind_eq_ok.1 h
    obtain ⟨_, _, h⟩ := Run.bind_eq_ok.1 h
    cases h; rfl
  refine ⟨trivial, ?_⟩
  intro T2 h2
  have e2 : T2 = T1 := by
    have : some (Res.ok T1) = some (Res.ok T2) := by simpa [exec1] using h2
    cases this; rfl
  subst e2
  refine ⟨trivial, ?_⟩
  intro T3 h3
  have hT3 : T3.is = [exI 1 (-1), exI 2 1] := by
    have h3' : dagT id T2 = some (.ok T3) := by simpa [exec1] using h3
    unfold dagT at h3'
    split at h3'
    · cases h3'; rw [hT1]; rfl
    · cases h3'
  refine ⟨⟨by simp, ?_⟩, ?_⟩
  · intro _
    change Valid (List.map (fun I => (I.qns.map (·.2)).sum) (Function.update (β := fun _ => QTensor Int) _ 1 T3 1).is) _
    rw [Function.update_self, hT3]
    exact hv 1 2 (by decide) (by decide) _ _
  · intro T4 _
    exact ⟨trivial, fun _ _ => trivial⟩

/-- Both tensors of `exProg` end with one flux. -/
example : ∃ s, exec id 100 exProg exStart = some (.ok s) ∧ ∀ r, OneFlux (fun _ => 1) (s r) := by
  have h := exProg_ends
  cases e : exec id 100 exProg exStart with
  | none => rw [e] at h; simp at h
  | some r =>
    cases r with
    | ok s => exact ⟨s, rfl, C82_program_partial exStart_good exProg_fine e⟩
    | throw => rw [e] at h; simp [Res.map] at h
    | ub => rw [e] at h; simp [Res.map] at h

/-- **C82 fails for `set` with a vector.** `T.set({1,1},5)` and then `T.set({1,3},6)` leave a tensor whose
elements 5 and 6 have different fluxes; `set` with an argument per index throws instead. -/
theorem C82_vector_counterexample :
    (exec id 100 [.new 0 [exI 1 1, exI 2 (-1)], .setVec 0 [0, 0] (5 : Int), .setVec 0 [0, 2] 6] exStart).map
      (fun r => r.map fun s => view (s 0) [[0, 0], [0, 2]]) =
      some (.ok ([1, -1], [[0, 0], [0, 1], [1, 1]], [some 5, some 6])) ∧
    (exec id 100 [.new 0 [exI 1 1, exI 2 (-1)], .set 0 [0, 0] (5 : Int), .set 0 [0, 2] 6] exStart).map
      (fun r => r.map fun _ => ()) = some .throw ∧
    norm 1 (eltVal [exI 1 1, exI 2 (-1)] [0, 0] (Verif.TagSet.Tag.ofBytes [83, 122])) ≠
      norm 1 (eltVal [exI 1 1, exI 2 (-1)] [0, 2] (Verif.TagSet.Tag.ofBytes [83, 122])) := by
  refine ⟨by decide +kernel, by decide +kernel, by decide +kernel⟩

/-- **A tensor without blocks has flux zero whatever it was made with.** `ITensor(q,i,j)` for a `q` which no
block has is zero; setting an element of flux 2 then throws, and adding a tensor `R` of flux 2 throws, while
adding it to `R` is `R`. -/
theorem C82_no_blocks_counterexample :
    (ofDiv (K := Int) 100 [exI 1 1, exI 2 (-1)] (exQ 1)).map (fun r => r.map fun d => (d.offsets, d.size)) = some (.ok ([], 0)) ∧
    calcDiv [exI 1 1, exI 2 (-1)] (⟨[], 0, fun _ => 0⟩ : QDense Int) = .ok Verif.QN.QN.default ∧
    (setVals 100 (⟨[exI 1 1, exI 2 (-1)], some ⟨[], 0, fun _ => 0⟩⟩ : QTensor Int) [0, 2] 5).map (fun r => r.map fun _ => ()) =
      some .throw ∧
    (plusT 100 (⟨[exI 1 1, exI 2 (-1)], some ⟨[], 0, fun _ => 0⟩⟩ : QTensor Int)
      ⟨[exI 1 1, exI 2 (-1)], some ⟨[⟨[0, 1], 0⟩], 2, fun _ => 7⟩⟩).map (fun r => r.map fun _ => ()) = some .throw ∧
    (plusT 100 (⟨[exI 1 1, exI 2 (-1)], some ⟨[⟨[0, 1], 0⟩], 2, fun _ => 7⟩⟩ : QTensor Int)
      ⟨[exI 1 1, exI 2 (-1)], some ⟨[], 0, fun _ => 0⟩⟩).map (fun r => r.map fun T => view T [[0, 2]]) =
      some (.ok ([1, -1], [[0, 1]], [some 7])) := by
  refine ⟨by decide +kernel, by decide +kernel, by decide +kernel, by decide +kernel, by decide +kernel⟩

/-- `C82_add` on an example: a tensor added to one with its indices in the other order. -/
example : ∃ A', plusT 100 fluxT ⟨[exI 2 (-1), exI 1 1], some exD⟩ = some (.ok ⟨fluxT.is, some A'⟩) ∧ OneFlux (fun _ => 1) ⟨fluxT.is, some A'⟩ := by
  have hR : Good (fun _ => 1) [Verif.TagSet.Tag.ofBytes [83, 122]] exEnv 100 (⟨[exI 2 (-1), exI 1 1], some exD⟩ : QTensor Int) := by
    refine ⟨exGoodIs (by decide) (by
      intro I hI
      have : I = exI 2 (-1) ∨ I = exI 1 1 := by simpa using hI
      rcases this with rfl | rfl <;> exact ⟨rfl, by decide⟩), by simp, ?_, ?_⟩
    · intro d hd; cases hd
      refine ⟨by unfold SortedOff exD; simp, ?_, rfl, rfl⟩
      intro o ho
      have : o = ⟨[1, 1], 0⟩ := by simpa [exD] using ho
      subst this
      exact List.Forall₂.cons (by decide) (List.Forall₂.cons (by decide) List.Forall₂.nil)
    · intro d hd; cases hd
      intro o ho o' ho' n
      have h1 : o = ⟨[1, 1], 0⟩ := by simpa [exD] using ho
      have h2 : o' = ⟨[1, 1], 0⟩ := by simpa [exD] using ho'
      rw [h1, h2]
  obtain ⟨qL, a1, a2, a3⟩ := fluxT_good.calcDiv (d := exD) rfl
  obtain ⟨qR, b1, b2, b3⟩ := hR.calcDiv (d := exD) rfl
  obtain ⟨A', h1, h2, _⟩ := (C82_add fluxT_good hR (A := exD) (B := exD) rfl rfl (by simp [fluxT]) (by simp [exD])
    (List.Perm.swap _ _ _) (by decide) (by decide) a1 b1).1 ⟨fun n => by
      rw [← a3 ⟨[1, 1], 0⟩ (by simp [exD]) n, ← b3 ⟨[1, 1], 0⟩ (by simp [exD]) n]
      simp [fluxVal, fluxT, exI], by
      intro I hI J hJ e
      have h1 : I = exI 1 1 ∨ I = exI 2 (-1) := by simpa [fluxT] using hI
      have h2 : J = exI 2 (-1) ∨ J = exI 1 1 := by simpa using hJ
      rcases h1 with rfl | rfl <;> rcases h2 with rfl | rfl <;> revert e <;> decide⟩
  exact ⟨A', h1, h2.oneFlux⟩

/-- The product of two matrices with two blocks each ends and has one flux (`C82_mul`). -/
example : ∃ T, timesT List.reverse 100 (fun _ => 99) (fun _ => 98) (⟨[exI 1 1, exI 2 (-1)], some exD2⟩ : QTensor Int)
    ⟨[exI 2 1, exI 3 (-1)], some exD2⟩ = some (.ok T) ∧ OneFlux (fun _ => 1) T := by
  have hG : ∀ i j di dj, (di = 1 ∨ di = -1) → dj = - di → i ≠ j →
      Good (fun _ => 1) [Verif.TagSet.Tag.ofBytes [83, 122]] exEnv 100 (⟨[exI i di, exI j dj], some exD2⟩ : QTensor Int) := by
    intro i j di dj h1 h2 h3
    refine ⟨exGoodIs (by simp [keys, exI, Index.key, h3]) (by
      intro I hI
      have : I = exI i di ∨ I = exI j dj := by simpa using hI
      rcases this with rfl | rfl
      · exact ⟨rfl, h1⟩
      · exact ⟨rfl, by show dj = 1 ∨ dj = -1; omega⟩), by simp, ?_, ?_⟩
    · intro d hd; cases hd; exact exD2_wf i j di dj
    · intro d hd; cases hd
      refine hasFlux_of (f := fun _ => 0) fun o ho n => ?_
      have : o = ⟨[0, 0], 0⟩ ∨ o = ⟨[1, 1], 4⟩ := by simpa [exD2] using ho
      rcases this with rfl | rfl <;> simp [fluxVal, exI, h2]
  have hL := hG 1 2 1 (-1) (by decide) (by decide) (by decide)
  have hR := hG 2 3 1 (-1) (by decide) (by decide) (by decide)
  have hr : ∀ i j di dj ind, Valid ([exI i di, exI j dj].map fun I => (I.qns.map (·.2)).sum) ind →
      ∃ x, getElt exD2 [exI i di, exI j dj] ind = .ok x := fun i j di dj ind h => (C22_get (exD2_wf i j di dj) h).1
  have hpos : ∀ I, (I ∈ [exI 1 1, exI 2 (-1)] ∨ I ∈ [exI 2 1, exI 3 (-1)]) → ∀ s ∈ I.qns, 0 < s.2 := by
    rintro I (h | h)
    all_goals revert I; decide
  obtain ⟨C, N, h1, _⟩ := C24_contract (Lis := [exI 1 1, exI 2 (-1)]) (Ris := [exI 2 1, exI 3 (-1)])
    (by decide) (by decide) (by decide) (by decide) hpos List.reverse (fun _ => List.reverse_perm _)
    (exD2_wf 1 2 1 (-1)) (exD2_wf 2 3 1 (-1)) 100 (by decide) (by decide)
    (by
      intro r hr
      rw [ex_offsets] at hr
      cases hr
      decide)
    (fun _ => 99) (fun _ => 98)
    (fun ind => match getElt exD2 [exI 1 1, exI 2 (-1)] ind with | .ok x => x | _ => 0)
    (fun ind => match getElt exD2 [exI 2 1, exI 3 (-1)] ind with | .ok x => x | _ => 0)
    (fun ind h => by obtain ⟨x, hx⟩ := hr 1 2 1 (-1) ind h; simp only [hx])
    (fun ind h => by obtain ⟨x, hx⟩ := hr 2 3 1 (-1) ind h; simp only [hx])
  have ht : timesT List.reverse 100 (fun _ => 99) (fun _ => 98) (⟨[exI 1 1, exI 2 (-1)], some exD2⟩ : QTensor Int)
      ⟨[exI 2 1, exI 3 (-1)], some exD2⟩ = some (.ok ⟨N.map (·.1), some C⟩) := by
    unfold timesT
    dsimp only
    rw [if_neg (by simp), if_neg (by simp), if_pos (by decide +kernel), h1]
    rfl
  exact ⟨_, ht, (C82_mul hL hR rfl rfl (by simp) (by simp) List.reverse _ _ ht).1.oneFlux⟩

end Verif.QDense
