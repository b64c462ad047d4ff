import Verif.QDense.Flux

/-!
# The flux of elements and of sums: lemmas
-/

namespace Verif.QDense

open Verif.Index (Index IndexSet)
open Verif.Index.IndexSet (keys prodInds computeLabels contractIS)
open Verif.Tensor
open Verif.Tensor.Permutation (IsPerm)
open Verif.QN (IsQN norm)

/-- The quantum number of the value `e`, counted from 0, of an index with the sectors `qs`. -/
def sectorQN : List (Verif.QN.QN × Nat) → Nat → Verif.QN.QN
  | [], _ => Verif.QN.QN.default
  | p :: t, e => if e < p.2 then p.1 else sectorQN t (e - p.2)

/-- The component `n` of the flux of the element `ind`: the sum over the indices of the quantum number
of the index value times the arrow. -/
def eltVal (is : IndexSet) (ind : List Nat) (n : Verif.QN.Name) : Int :=
  (List.zipWith (fun (I : Index) (e : Nat) => (sectorQN I.qns e).val n * I.dir) is ind).sum

theorem sectorQN_gl (qs : List (Verif.QN.QN × Nat)) (b u : Nat) (hb : b < qs.length)
    (hu : u < (qs.map (·.2)).getD b 0) :
    sectorQN qs (((qs.map (·.2)).take b).sum + u) = (qs.getD b (Verif.QN.QN.default, 0)).1 := by
  induction qs generalizing b with
  | nil => simp at hb
  | cons p t ih =>
    cases b with
    | zero =>
      simp only [List.map_cons, List.getD_cons_zero] at hu
      simp [sectorQN, hu]
    | succ b =>
      simp only [List.map_cons, List.getD_cons_succ, List.length_cons] at hu hb
      have := ih b (by omega) hu
      simp only [List.map_cons, List.take_succ_cons, List.sum_cons, sectorQN, List.getD_cons_succ]
      rw [if_neg (by omega), ← this]
      congr 1
      omega

theorem eltVal_glue {is : IndexSet} {b : Block} {u : List Nat} (hb : Valid (nb is) b)
    (hu : Valid (bext is b) u) (n : Verif.QN.Name) : eltVal is (glue is b u) n = fluxVal is b n := by
  induction is generalizing b u with
  | nil => simp [eltVal, fluxVal]
  | cons I is ih =>
    simp only [nb, List.map_cons] at hb
    cases hb with
    | cons h1 h2 =>
      simp only [bext, List.zipWith_cons_cons] at hu
      cases hu with
      | cons h3 h4 =>
        have := ih h2 h4
        simp only [eltVal, fluxVal] at this
        simp only [eltVal, fluxVal, glue, List.zipWith_cons_cons, List.sum_cons, this]
        rw [show gl I _ _ = (((I.qns.map (·.2)).take _).sum + _) from rfl, sectorQN_gl _ _ _ h1 h3]

theorem sectorLoop_gl (ms : List Nat) (b u k : Nat) (hb : b < ms.length) (hu : u < ms.getD b 0) :
    Index.sectorLoop ms k ((((ms.take b).sum + u : Nat) : Int) + 1) = .ok (k + b, (u : Int) + 1) := by
  induction ms generalizing b k with
  | nil => simp at hb
  | cons m ms ih =>
    unfold Index.sectorLoop
    cases b with
    | zero =>
      simp only [List.getD_cons_zero] at hu
      rw [if_neg (by simp; omega)]
      simp
    | succ b =>
      simp only [List.getD_cons_succ, List.length_cons] at hu hb
      rw [if_pos (by
        simp only [List.take_succ_cons, List.sum_cons]
        omega)]
      have := ih b (k + 1) (by omega) hu
      rw [show ((((((m :: ms).take (b + 1)).sum + u : Nat) : Int) + 1) - (m : Int)) =
        ((((ms.take b).sum + u : Nat) : Int) + 1) by simp; ring, this]
      congr 2
      omega

theorem valQN_gl {I : Index} {b u : Nat} (hb : b < I.nblock) (hu : u < bsize I b) :
    I.valQN ((gl I b u : Int) + 1) = .ok (I.qns.getD b (Verif.QN.QN.default, 0)).1 := by
  have hb' : b < I.qns.length := hb
  unfold Index.valQN Index.sectorInfo gl
  have hs := sectorLoop_gl (szs I) b u 1 (by simpa [szs] using hb') hu
  rw [show I.qns.map (·.2) = szs I from rfl, hs]
  simp only [Res.bind_ok]
  rw [show 1 + b - 1 = b by omega, List.getElem?_eq_getElem hb']
  simp [List.getD_eq_getElem?_getD, List.getElem?_eq_getElem hb']

theorem eltFlux_glue {is : IndexSet} {b : Block} {u : List Nat} (hb : Valid (nb is) b)
    (hu : Valid (bext is b) u) (q : Verif.QN.QN) : eltFlux is (glue is b u) q = .ok (fluxOf is b q) := by
  induction is generalizing b u q with
  | nil => cases hb; simp [eltFlux, fluxOf]
  | cons I is ih =>
    simp only [nb, List.map_cons] at hb
    cases hb with
    | cons h1 h2 =>
      simp only [bext, List.zipWith_cons_cons] at hu
      cases hu with
      | cons h3 h4 =>
        simp only [glue, eltFlux, valQN_gl h1 h3, Res.bind_ok, fluxOf]
        exact ih h2 h4 _

theorem default_names {u : List Verif.QN.Name} :
    ∀ v ∈ Verif.QN.QN.default, v.active = true → v.name ∈ u := by
  intro v hv hv2
  have := (List.mem_replicate.1 hv).2; subst this; cases hv2

/-- The flux the code computes for a block. -/
theorem fluxOf_default {M : Verif.QN.Name → Int} {u : List Verif.QN.Name} {is : IndexSet}
    (h : SectorsOK M u is) {b : Block} (hb : Valid (nb is) b) :
    IsQN M (fluxOf is b Verif.QN.QN.default) ∧
      ∀ n, (fluxOf is b Verif.QN.QN.default).val n = norm (M n) (fluxVal is b n) := by
  obtain ⟨k1, k2⟩ := fluxOf_val h hb (Verif.QN.isQN_default M) default_names
  refine ⟨k1, fun n => ?_⟩
  have e := k2 n
  rw [isQN_val_norm k1 n] at e
  have h0 : (Verif.QN.QN.default).val n = 0 := by rw [(Verif.QN.WF.default M).val]; rfl
  rw [h0, Int.zero_add] at e
  exact e

/-! ## Runs -/

theorem Run.bind_eq_ok {α β} {x : Run α} {f : α → Run β} {y : β} :
    Run.bind x f = some (.ok y) ↔ ∃ a, x = some (.ok a) ∧ f a = some (.ok y) := by
  unfold Run.bind
  rcases x with _ | (a | _ | _) <;> simp

@[simp] theorem Run.bind_ok {α β} (a : α) (f : α → Run β) : Run.bind (some (.ok a)) f = f a := rfl
@[simp] theorem Run.bind_throw {α β} (f : α → Run β) : Run.bind (some .throw) f = some .throw := rfl
@[simp] theorem Run.bind_ub {α β} (f : α → Run β) : Run.bind (some .ub) f = some .ub := rfl

theorem Run.lift_eq_ok {α} {x : Res α} {y : α} : Run.lift x = some (.ok y) ↔ x = .ok y := by
  unfold Run.lift; simp

section
variable {K : Type*} [CommRing K]

theorem addBlock_offsets {fuel : Nat} {P : Permutation} {is1 is2 : IndexSet} {alpha : K} {A B A' : QDense K}
    {o : BlOf} (h : addBlock fuel P is1 is2 alpha B A o = some (.ok A')) :
    A'.offsets = A.offsets ∧ A'.size = A.size := by
  unfold addBlock at h
  repeat' split at h
  all_goals first
    | (simp at h; done)
    | (obtain ⟨m, _, hm⟩ := Run.bind_eq_ok.1 h; cases hm; exact ⟨rfl, rfl⟩)
    | (cases h; exact ⟨rfl, rfl⟩)

theorem add_offsets {fuel : Nat} {P : Permutation} {is1 is2 : IndexSet} {alpha : K} {A B A' : QDense K}
    (h : add fuel P is1 is2 alpha A B = some (.ok A')) : A'.offsets = A.offsets ∧ A'.size = A.size := by
  unfold add at h
  split at h
  · cases h; exact ⟨rfl, rfl⟩
  · suffices ∀ (l : List BlOf) (A : QDense K), runFold (addBlock fuel P is1 is2 alpha B) A l = some (.ok A') →
        A'.offsets = A.offsets ∧ A'.size = A.size from
      this _ A h
    intro l
    induction l with
    | nil => intro A h; cases h; exact ⟨rfl, rfl⟩
    | cons o l ih =>
      intro A h
      obtain ⟨A1, h1, h2⟩ := Run.bind_eq_ok.1 h
      obtain ⟨g1, g2⟩ := ih A1 h2
      obtain ⟨k1, k2⟩ := addBlock_offsets h1
      exact ⟨g1.trans k1, g2.trans k2⟩

/-- The blocks after `L += R`, whenever the addition ends. -/
theorem plusEq_blocks {P : List Nat} {is1 is2 : IndexSet} (h : Match P is1 is2)
    {A B : QDense K} (hA : WF is1 A.offsets A.size) (hB : WF is2 B.offsets B.size)
    (alpha : K) {fuel : Nat} {A' : QDense K} (hrun : plusEq fuel P is1 is2 alpha A B = some (.ok A')) :
    WF is1 A'.offsets A'.size ∧
      ∀ o ∈ A'.offsets, (∃ a ∈ A.offsets, o.block = a.block) ∨ ∃ b ∈ B.offsets, pk P o.block = b.block := by
  have hself : WF is1 A.offsets A.size ∧ ∀ o ∈ A.offsets, (∃ a ∈ A.offsets, o.block = a.block) ∨
      ∃ b ∈ B.offsets, pk P o.block = b.block := ⟨hA, fun o ho => Or.inl ⟨o, ho, rfl⟩⟩
  unfold plusEq at hrun
  split at hrun
  · cases hrun; exact hself
  rename_i hB0
  split at hrun
  · obtain ⟨g1, g2⟩ := add_offsets hrun
    rw [g1, g2]; exact hself
  rename_i hne
  obtain ⟨Q, hQ1, hQ2, hQ3, hQ4, hQ5, _⟩ := C16_inverse P h.perm
  have hs := h.symm hQ2 hQ3 hQ5
  have hBlen : ∀ o ∈ B.offsets, o.block.length = P.length := by
    intro o ho
    rw [valid_length (hB.valid o ho), h.len2]; simp [nb]
  have hpa : pickAll Q (B.offsets.map (·.block)) = .ok ((B.offsets.map (·.block)).map (pk Q)) := by
    apply pickAll_ok
    intro b hb i hi
    obtain ⟨o, ho, rfl⟩ := List.mem_map.1 hb
    rw [hBlen o ho, ← hQ3]; exact hQ2.lt hi
  rw [hQ1] at hrun
  dsimp only at hrun
  rw [hpa] at hrun
  dsimp only at hrun
  set bps := (B.offsets.map (·.block)).map (pk Q) with hbps
  set Ab := A.offsets.map (·.block) with hAb
  set cb := mergeBlocks Ab (sortBlocks bps) with hcb
  split at hrun
  · have hAs : SortedB Ab := by rw [hAb]; exact List.pairwise_map.2 hA.sorted
    have hbnd : bps.Nodup := by
      rw [hbps]
      refine List.Nodup.map_on ?_ (sortedOff_nodup hB.sorted)
      intro x hx y hy e
      obtain ⟨o, ho, rfl⟩ := List.mem_map.1 hx
      obtain ⟨o', ho', rfl⟩ := List.mem_map.1 hy
      exact pk_inj hQ2 (by rw [hBlen o ho, hQ3]) (by rw [hBlen o' ho', hQ3]) e
    have hcs : SortedB cb := mergeBlocks_sorted _ _ hAs (sortBlocks_sorted hbnd)
    have hcm : ∀ x, x ∈ cb ↔ x ∈ Ab ∨ x ∈ bps := by
      intro x
      rw [hcb, mergeBlocks_mem, (sortBlocks_perm bps).mem_iff]
    have hcv : ∀ x ∈ cb, Valid (nb is1) x := by
      intro x hx
      rcases (hcm x).1 hx with hx | hx
      · obtain ⟨o, ho, rfl⟩ := List.mem_map.1 hx; exact hA.valid o ho
      · obtain ⟨y, hy, rfl⟩ := List.mem_map.1 hx
        obtain ⟨o, ho, rfl⟩ := List.mem_map.1 hy
        exact hs.valid (hB.valid o ho)
    obtain ⟨l, e, hl1, hl2, hl3⟩ := uoLoop_wf hcs hcv
    have hob : ofBlocks (K := K) is1 cb = .ok ⟨l, e, fun _ => 0⟩ := by
      unfold ofBlocks
      rw [if_neg hne, hl1]
      rfl
    rw [hob] at hrun
    dsimp only at hrun
    obtain ⟨A1, h1, h2⟩ := Run.bind_eq_ok.1 hrun
    obtain ⟨g1, g2⟩ := add_offsets h1
    obtain ⟨k1, k2⟩ := add_offsets h2
    have eo : A'.offsets = l := k1.trans g1
    have es : A'.size = e := k2.trans g2
    rw [eo, es]
    refine ⟨hl3, fun o ho => ?_⟩
    have hoc : o.block ∈ cb := by rw [← hl2]; exact List.mem_map_of_mem ho
    rcases (hcm _).1 hoc with hx | hx
    · obtain ⟨a, ha, e⟩ := List.mem_map.1 hx; exact Or.inl ⟨a, ha, e.symm⟩
    · obtain ⟨y, hy, e⟩ := List.mem_map.1 hx
      obtain ⟨b, hb, rfl⟩ := List.mem_map.1 hy
      refine Or.inr ⟨b, hb, ?_⟩
      rw [← e]
      exact pk_pk h.perm hQ3 (by
        intro i d hd
        exact hQ4 i d hd) (by rw [hBlen b hb])
  · obtain ⟨g1, g2⟩ := add_offsets hrun
    rw [g1, g2]; exact hself

end

/-- Permuting the indices of a tensor does not change the flux of a block. -/
theorem fluxVal_match {P : List Nat} {is1 is2 : IndexSet} (h : Match P is1 is2)
    (hI : ∀ (i d : Nat) (I J : Index), P[i]? = some d → is1[d]? = some I → is2[i]? = some J →
      J.qns = I.qns ∧ J.dir = I.dir) {b : Block} (hb : Valid (nb is1) b) (n : Verif.QN.Name) :
    fluxVal is2 (pk P b) n = fluxVal is1 b n := by
  -- forget all of an index but the sectors and the arrow
  let f : Index → Index := fun I => ⟨0, 0, I.dir, Verif.TagSet.TagSet.default, I.qns⟩
  have hf : ∀ (is : IndexSet) (b : Block), fluxVal (is.map f) b n = fluxVal is b n := by
    intro is b
    unfold fluxVal
    rw [List.zipWith_map_left]
  rw [← hf is2, ← hf is1]
  refine fluxVal_perm (P := P) ⟨h.perm, by rw [h.len2]; simp, by simp [← h.len1, ← h.len2], ?_⟩ (by
    rw [valid_length hb]; simp [nb]) n
  intro i d hd
  obtain ⟨I, J, h1, h2, _⟩ := h.get hd
  obtain ⟨e1, e2⟩ := hI i d I J hd h1 h2
  simp [h1, h2, f, e1, e2]

theorem dag_key (I : Index) : I.dag.key = I.key := rfl

theorem fluxVal_dag {is : IndexSet} (hd : ∀ I ∈ is, I.dir = 1 ∨ I.dir = -1) (b : Block) (n : Verif.QN.Name) :
    fluxVal (is.map Index.dag) b n = - fluxVal is b n := by
  induction is generalizing b with
  | nil => simp [fluxVal]
  | cons I is ih =>
    cases b with
    | nil => simp [fluxVal]
    | cons x b =>
      have := ih (fun J hJ => hd J (by simp [hJ])) b
      simp only [fluxVal, List.map_cons, List.zipWith_cons_cons, List.sum_cons] at this ⊢
      rw [this]
      have e : I.dag.dir = - I.dir := by
        rcases hd I (by simp) with e | e <;> simp [Index.dag, e]
      rw [e, show I.dag.qns = I.qns from rfl]
      ring

end Verif.QDense
