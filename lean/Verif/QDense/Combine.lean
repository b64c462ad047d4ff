import Verif.QDense.Combiner
import Verif.Net.Combine
import Verif.Tensor.Slice

/-!
# Combining and uncombining QN indices of a tensor

Model of `combine`, `uncombine` and the `Contract` tasks of `/repo/itensor/itdata/qcombiner.cc:125-339`.
Property C26 for block-sparse tensors.

Simplifications. As in `QDense/Model.lean`. The `Range` of the `QCombiner` is that of the numbers of
blocks of the indices after the first (`QCombiner(inds)`, qcombiner.h:64-74). The loops over all
indices of the tensor which fill `cblock` and `nblock` are written as two loops. `assert` is off: writing
to a block that is not there is undefined. `fresh` is the undefined contents of new memory.
-/

namespace Verif.QDense

open Verif.Index (Index IndexSet)
open Verif.Index.IndexSet (keys indexPosition)
open Verif.Tensor
open Verif.Tensor.Range
open Verif.Tensor.Permutation (IsPerm permuteLoop)
open Verif.QN (IsQN norm)

section model
variable {K : Type*} [CommRing K]

/-- `doTask(CalcDiv,QDense)` (qdense.cc:95-105) with `calcDiv` (qdense.cc:86-93). -/
def calcDiv (is : IndexSet) (d : QDense K) : Res Verif.QN.QN :=
  match is, d.offsets with
  | [], _ => .ok Verif.QN.QN.default
  | _, [] => .ok Verif.QN.QN.default
  | is, o :: _ => blockQN is o.block Verif.QN.QN.default

/-- `dperm` (qcombiner.cc:152-159): the destination of each index of the tensor, `dest` being `uncomb_dest`. An index
equal to `Cis[0]` would get `-1`. -/
def combPerm (Cis : IndexSet) : IndexSet → Nat → Res (List Nat)
  | [], _ => .ok []
  | I :: is, dest =>
    match indexPosition Cis I with
    | some 0 => .ub
    | some (j + 1) => (combPerm Cis is dest).bind fun P => .ok (j :: P)
    | none => (combPerm Cis is (dest + 1)).bind fun P => .ok (dest :: P)

/-- The entries which are not combined (qcombiner.cc:166, 193-197). -/
def uncombined {α} (ncomb : Nat) (l : List α) (P : List Nat) : List α :=
  ((l.zip P).filter fun p => ncomb ≤ p.2).map (·.1)

/-- `cblock[dperm[i]] = io.block[i]` for the combined indices (qcombiner.cc:193-197). -/
def combBlock (ncomb : Nat) (b : Block) (P : List Nat) : Res Block :=
  let l := (b.zip P).filter fun p => p.2 < ncomb
  permuteLoop (l.map (·.2)) (l.map (·.1)) (List.replicate ncomb 0)

/-- `getBlockRange` (qcombiner.h:104-110). -/
def getBlockRange (cs : IndexSet) (store : List BlockRange) (cb : Block) : Res BlockRange :=
  (offset 0 (Range.init (cs.map (·.nblock))) cb).bind fun o =>
  if o < 0 then .throw
  else match store[o.toNat]? with
    | some br => .ok br
    | none => .throw

/-- Body of the loop over the blocks of `d` in `combine` (qcombiner.cc:178-212); `nd` is the new storage. -/
def combineStep (fuel : Nat) (fresh : Int → K) (P : List Nat) (cs Nis dis : IndexSet) (store : List BlockRange)
    (d nd : QDense K) (io : BlOf) : Run (QDense K) :=
  match blockExtents dis io.block with
  | .ok ed =>
    match permuteRange (Range.init ed) P with
    | .ok V =>
      (runTransform fuel (fun b _ => b) V (Range.init V.extents) (fun a => d.data (io.offset + a)) fresh).bind fun m =>
      match groupIndsRange (Range.init V.extents) 0 cs.length with
      | .ok G =>
        match (combBlock cs.length io.block P).bind (getBlockRange cs store) with
        | .ok br =>
          let nblock := br.block :: uncombined cs.length io.block P
          match blockExtents Nis nblock, getBlock nd nblock with
          | .ok en, some no =>
            match subIndex (Range.init en) 0 br.start (br.start + br.extent) with
            | .ok (off, S) =>
              (runTransform fuel (fun b _ => b) G S m (fun a => nd.data (no + off + a))).bind fun m' =>
              some (.ok { nd with data := fun a => m' (a - (no + off)) })
            | _ => some .ub
          | _, _ => some .ub
        | .throw => some .throw
        | .ub => some .ub
      | .throw => some .throw
      | .ub => some .ub
    | _ => some .ub
  | _ => some .ub

/-- `combine` (qcombiner.cc:125-213): the new indices and the new storage. -/
def qcombine (fuel : Nat) (fresh : Int → K) (dis Cis : IndexSet) (store : List BlockRange) (d : QDense K) :
    Run (IndexSet × QDense K) :=
  match Cis with
  | [] => some .ub
  | c :: cs =>
    match (combPerm Cis dis cs.length).bind fun P => (calcDiv dis d).bind fun div => .ok (P, div) with
    | .ok (P, div) =>
      let Nis := c :: uncombined cs.length dis P
      (ofDiv fuel Nis div).bind fun nd =>
      (runFold (combineStep fuel fresh P cs Nis dis store d) nd d.offsets).bind fun nd => some (.ok (Nis, nd))
    | .throw => some .throw
    | .ub => some .ub

/-- The loop that turns `o` into block numbers (qcombiner.cc:272-282). -/
def invertOffset : IndexSet → Nat → Block
  | [], _ => []
  | [_], o => [o]
  | I :: is, o => (o % I.nblock) :: invertOffset is ((o - o % I.nblock) / I.nblock)

/-- Body of the loop over the store of the combiner in `uncombine` (qcombiner.cc:263-299), entry `o`. -/
def uncombineStep (fuel : Nat) (jc : Nat) (cs Nis : IndexSet) (ed : List Nat) (d : QDense K) (io : BlOf)
    (nd : QDense K) (e : Nat × BlockRange) : Run (QDense K) :=
  match io.block[jc]? with
  | none => some .ub
  | some n =>
    if e.2.block ≠ n then some (.ok nd)
    else
      let nblock := io.block.take jc ++ invertOffset cs e.1 ++ io.block.drop (jc + 1)
      match subIndex (Range.init ed) jc e.2.start (e.2.start + e.2.extent), blockExtents Nis nblock, getBlock nd nblock with
      | .ok (off, S), .ok en, some no =>
        match groupIndsRange (Range.init en) jc (jc + cs.length) with
        | .ok G =>
          (runTransform fuel (fun b _ => b) S G (fun a => d.data (io.offset + off + a)) (fun a => nd.data (no + a))).bind fun m' =>
          some (.ok { nd with data := fun a => m' (a - no) })
        | .throw => some .throw
        | .ub => some .ub
      | _, _, _ => some .ub

/-- Body of the loop over the blocks of `d` in `uncombine` (qcombiner.cc:255-300). -/
def uncombineBlock (fuel : Nat) (jc : Nat) (cs Nis dis : IndexSet) (store : List BlockRange) (d nd : QDense K) (io : BlOf) :
    Run (QDense K) :=
  match blockExtents dis io.block with
  | .ok ed => runFold (uncombineStep fuel jc cs Nis ed d io) nd ((List.range store.length).zip store)
  | _ => some .ub

/-- `uncombine` (qcombiner.cc:216-301). `jc` is the position of the combined index. -/
def quncombine (fuel : Nat) (dis Cis : IndexSet) (store : List BlockRange) (d : QDense K) (jc : Nat) :
    Run (IndexSet × QDense K) :=
  match Cis with
  | [] => some .ub
  | _ :: cs =>
    match calcDiv dis d with
    | .ok div =>
      let Nis := dis.take jc ++ cs ++ dis.drop (jc + 1)
      (ofDiv fuel Nis div).bind fun nd =>
      (runFold (uncombineBlock fuel jc cs Nis dis store d) nd d.offsets).bind fun nd => some (.ok (Nis, nd))
    | .throw => some .throw
    | .ub => some .ub

/-- `doTask(Contract,QDense,QCombiner)` (qcombiner.cc:303-318; the task with the operands exchanged, 322-337, does the
same). -/
def mulQCombiner (fuel : Nat) (fresh : Int → K) (dis Cis : IndexSet) (store : List BlockRange) (d : QDense K) :
    Run (IndexSet × QDense K) :=
  match Cis with
  | [] => some .ub
  | c :: _ =>
    match indexPosition dis c with
    | some jc => quncombine fuel dis Cis store d jc
    | none => qcombine fuel fresh dis Cis store d

end model

/-! ## The permutation -/

theorem combPerm_ok {c : Index} {cs : IndexSet} (hcs : (keys cs).Nodup) (dis : IndexSet) (dest : Nat)
    (hc : c.key ∉ keys dis) (hnd : (keys dis).Nodup) :
    combPerm (c :: cs) dis dest = .ok (dis.map fun I => if I.key ∈ keys cs then (keys cs).idxOf I.key else
      dest + (keys (dis.filter fun i => ¬ i.key ∈ keys cs)).idxOf I.key) := by
  induction dis generalizing dest with
  | nil => rfl
  | cons I dis ih =>
    have hI : I.key ∉ keys dis := (List.nodup_cons.1 hnd).1
    have hnd' := (List.nodup_cons.1 hnd).2
    have hc1 : c.key ≠ I.key := fun e => hc (by rw [e]; exact List.mem_cons_self ..)
    have hc2 : c.key ∉ keys dis := fun h => hc (List.mem_cons_of_mem _ h)
    have hpos : indexPosition (c :: cs) I = (indexPosition cs I).map (· + 1) := by
      unfold indexPosition
      rw [List.findIdx?_cons, if_neg]
      simpa [Index.eq_iff] using hc1
    by_cases hS : I.key ∈ keys cs
    · obtain ⟨j, hj⟩ := Verif.Net.indexPosition_mem hS
      obtain ⟨x, _, hx, hjl⟩ := Verif.Net.indexPosition_some hj
      have hidx : (keys cs).idxOf I.key = j := by
        unfold indexPosition at hj
        obtain ⟨h1, h2, _⟩ := List.findIdx?_eq_some_iff_getElem.1 hj
        have h3 : (keys cs)[j]'(by simpa [keys] using h1) = I.key := by
          simp only [keys, List.getElem_map]
          exact Index.eq_iff.1 h2
        rw [← h3]
        exact hcs.idxOf_getElem j _
      simp only [combPerm, hpos, hj, Option.map_some, ih dest hc2 hnd', Res.bind_ok, List.map_cons, hS, if_true, hidx]
      simp [hS]
    · have hj := Verif.Net.indexPosition_none.2 hS
      simp only [combPerm, hpos, hj, Option.map_none, ih (dest + 1) hc2 hnd', Res.bind_ok, List.map_cons, hS, if_false]
      have hf : (I :: dis).filter (fun i => decide (¬ i.key ∈ keys cs)) = I :: dis.filter (fun i => decide (¬ i.key ∈ keys cs)) := by simp [hS]
      rw [hf]
      have hk : keys (I :: dis.filter fun i => decide (¬ i.key ∈ keys cs)) = I.key :: keys (dis.filter fun i => decide (¬ i.key ∈ keys cs)) := rfl
      rw [hk]
      refine congrArg _ (List.cons_eq_cons.2 ⟨by simp [List.idxOf_cons_self], List.map_congr_left fun i hi => ?_⟩)
      have hne : i.key ≠ I.key := fun e => hI (by rw [← e]; exact List.mem_map_of_mem hi)
      by_cases hi' : i.key ∈ keys cs
      · simp [hi']
      · simp only [hi', if_false]
        rw [List.idxOf_cons_ne _ (Ne.symm hne)]
        omega

/-- Position of an index of the tensor when the combined indices are in front. -/
def destOf (cs dis : IndexSet) (I : Index) : Nat :=
  if I.key ∈ keys cs then (keys cs).idxOf I.key else
    cs.length + (keys (dis.filter fun i => ¬ i.key ∈ keys cs)).idxOf I.key

/-- The indices `inds` of the tensor `dis` are those which the combiner with indices `c`, `cs` combines. -/
structure CombinesInds (c : Index) (cs inds dis : IndexSet) : Prop where
  keysEq : keys cs = keys inds
  sub : ∀ I ∈ inds, I ∈ dis
  nodup : (keys dis).Nodup
  indsNodup : (keys inds).Nodup
  notc : c.key ∉ keys dis

/-- The indices that stay. -/
def restOf (cs dis : IndexSet) : IndexSet := dis.filter fun i => ¬ i.key ∈ keys cs

section
variable {c : Index} {cs inds dis : IndexSet}

theorem CombinesInds.len (h : CombinesInds c cs inds dis) : cs.length = inds.length := by
  have := congrArg List.length h.keysEq; simpa [keys] using this

theorem CombinesInds.keyInj (h : CombinesInds c cs inds dis) {I J : Index} (hI : I ∈ dis) (hJ : J ∈ dis)
    (e : I.key = J.key) : I = J := List.inj_on_of_nodup_map h.nodup hI hJ e

theorem CombinesInds.perm (h : CombinesInds c cs inds dis) : dis.Perm (inds ++ restOf cs dis) := by
  have hn1 : dis.Nodup := List.Nodup.of_map _ h.nodup
  have hn2 : inds.Nodup := List.Nodup.of_map _ h.indsNodup
  rw [List.perm_ext_iff_of_nodup hn1]
  · intro I
    rw [List.mem_append]
    constructor
    · intro hI
      by_cases hk : I.key ∈ keys cs
      · left
        rw [h.keysEq] at hk
        obtain ⟨J, hJ, e⟩ := List.mem_map.1 hk
        rw [← h.keyInj (h.sub J hJ) hI e]; exact hJ
      · right; unfold restOf; simp [hI, hk]
    · rintro (hI | hI)
      · exact h.sub I hI
      · exact (List.mem_filter.1 hI).1
  · refine List.Nodup.append hn2 (hn1.filter _) ?_
    intro I hI hI'
    have := (List.mem_filter.1 hI').2
    simp only [decide_eq_true_eq] at this
    exact this (by rw [h.keysEq]; exact List.mem_map_of_mem hI)

theorem CombinesInds.destOf_eq (h : CombinesInds c cs inds dis) {I : Index} :
    destOf cs dis I = (keys (inds ++ restOf cs dis)).idxOf I.key := by
  have : keys (inds ++ restOf cs dis) = keys cs ++ keys (restOf cs dis) := by
    rw [h.keysEq]; simp [keys]
  rw [this]
  unfold destOf
  have e2 : (keys cs).length = cs.length := by simp [keys]
  rw [List.idxOf_append, e2, Nat.add_comm cs.length]
  rfl

theorem CombinesInds.labelPerm (h : CombinesInds c cs inds dis) :
    LabelPerm (dis.map (destOf cs dis)) dis (inds ++ restOf cs dis) := by
  have hp := h.perm
  have e : dis.map (destOf cs dis) = (keys dis).map (fun k => (keys (inds ++ restOf cs dis)).idxOf k) := by
    simp only [keys, List.map_map]
    refine List.map_congr_left fun I _ => ?_
    exact h.destOf_eq
  have hk : LabelPerm (dis.map (destOf cs dis)) (keys dis) (keys (inds ++ restOf cs dis)) := by
    rw [e]; exact Verif.Net.labelPerm_idx (hp.map _) h.nodup
  refine ⟨hk.1, by simp, hp.length_eq, ?_⟩
  intro i d hd
  have h1 := hk.2.2.2 i d hd
  simp only [keys, List.getElem?_map] at h1
  have hlt : i < dis.length := by
    have := (List.getElem?_eq_some_iff.1 hd).1; simpa using this
  rw [List.getElem?_eq_getElem hlt] at h1 ⊢
  cases hx : (inds ++ restOf cs dis)[d]? with
  | none => rw [hx] at h1; simp at h1
  | some x =>
    rw [hx] at h1
    simp only [Option.map_some, Option.some.injEq] at h1
    rw [h.keyInj (hp.mem_iff.2 (List.mem_of_getElem? hx)) (List.getElem_mem hlt) h1]

theorem CombinesInds.matches (h : CombinesInds c cs inds dis) :
    Match (dis.map (destOf cs dis)) (inds ++ restOf cs dis) dis := by
  have hl := h.labelPerm
  refine ⟨hl.1, by rw [hl.2.1, hl.2.2.1], hl.2.1, ?_⟩
  intro i d I J h1 h2 h3
  have := hl.2.2.2 i d h1
  rw [h2, h3] at this
  rw [Option.some.inj this]

theorem destOf_lt (h : CombinesInds c cs inds dis) {I : Index} : destOf cs dis I < cs.length ↔ I.key ∈ keys cs := by
  unfold destOf
  constructor
  · intro hlt
    by_contra hn
    rw [if_neg hn] at hlt
    omega
  · intro hm
    rw [if_pos hm]
    have := List.idxOf_lt_length_iff.2 hm
    simpa [keys] using this

theorem uncombined_map {α} (h : CombinesInds c cs inds dis) (g : Index → α) :
    uncombined cs.length (dis.map g) (dis.map (destOf cs dis)) = (restOf cs dis).map g := by
  unfold uncombined restOf
  have : (dis.map g).zip (dis.map (destOf cs dis)) = dis.map fun I => (g I, destOf cs dis I) := by
    rw [List.zip_map']
  rw [this, List.filter_map, List.map_map]
  have hf : dis.filter ((fun p : α × Nat => decide (cs.length ≤ p.2)) ∘ fun I => (g I, destOf cs dis I)) =
      dis.filter fun i => decide (¬ i.key ∈ keys cs) := by
    refine List.filter_congr fun I _ => ?_
    simp only [Function.comp]
    rw [decide_eq_decide, ← destOf_lt h (I := I)]
    omega
  rw [hf]
  rfl

theorem pk_dest (cs dis : IndexSet) (l : List Nat) :
    pk (dis.map (destOf cs dis)) l = dis.map fun I => l.getD (destOf cs dis I) 0 := by
  unfold pk; rw [List.map_map]; rfl

theorem uncombined_pk (h : CombinesInds c cs inds dis) {bc br : Block} (hc : bc.length = inds.length)
    (hr : br.length = (restOf cs dis).length) :
    uncombined cs.length (pk (dis.map (destOf cs dis)) (bc ++ br)) (dis.map (destOf cs dis)) = br := by
  rw [pk_dest, uncombined_map h]
  have hn : (keys (restOf cs dis)).Nodup := by
    unfold restOf keys
    exact (h.nodup).sublist ((List.filter_sublist).map _)
  apply List.ext_getElem (by simp [hr])
  intro n h1 h2
  have h1' : n < (restOf cs dis).length := by simpa using h1
  have hnk : (restOf cs dis)[n].key ∉ keys cs := by
    have := (List.mem_filter.1 (List.getElem_mem h1')).2
    simpa using this
  have hd : destOf cs dis (restOf cs dis)[n] = cs.length + n := by
    unfold destOf
    rw [if_neg hnk]
    congr 1
    have := hn.idxOf_getElem n (by simpa [keys] using h1')
    simpa [keys, restOf] using this
  rw [List.getElem_map, hd, List.getD_eq_getElem?_getD, List.getElem?_append_right (by rw [h.len]; omega),
    show cs.length + n - bc.length = n by rw [h.len, hc]; omega, List.getElem?_eq_getElem h2]
  rfl

theorem combBlock_pk (h : CombinesInds c cs inds dis) {bc br : Block} (hc : bc.length = inds.length) :
    combBlock cs.length (pk (dis.map (destOf cs dis)) (bc ++ br)) (dis.map (destOf cs dis)) = .ok bc := by
  unfold combBlock
  have hz : (pk (dis.map (destOf cs dis)) (bc ++ br)).zip (dis.map (destOf cs dis)) =
      dis.map fun I => ((bc ++ br).getD (destOf cs dis I) 0, destOf cs dis I) := by
    rw [pk_dest, List.zip_map']
  rw [hz, List.filter_map]
  dsimp only
  rw [List.map_map, List.map_map]
  have hf : dis.filter ((fun p : Nat × Nat => decide (p.2 < cs.length)) ∘
      fun I => ((bc ++ br).getD (destOf cs dis I) 0, destOf cs dis I)) = dis.filter fun i => decide (i.key ∈ keys cs) := by
    refine List.filter_congr fun I _ => ?_
    simp only [Function.comp]
    rw [decide_eq_decide, ← destOf_lt h (I := I)]
  rw [hf]
  set dc := dis.filter fun i => decide (i.key ∈ keys cs) with hdc
  have hnk : (keys dc).Nodup := by
    rw [hdc]; unfold keys; exact (h.nodup).sublist ((List.filter_sublist).map _)
  have hperm : (keys dc).Perm (keys cs) := by
    rw [List.perm_ext_iff_of_nodup hnk (by rw [h.keysEq]; exact h.indsNodup)]
    intro k
    constructor
    · intro hk
      obtain ⟨I, hI, rfl⟩ := List.mem_map.1 hk
      rw [hdc] at hI
      simpa using (List.mem_filter.1 hI).2
    · intro hk
      have hk' := hk
      rw [h.keysEq] at hk'
      obtain ⟨J, hJ, rfl⟩ := List.mem_map.1 hk'
      refine List.mem_map_of_mem (f := Index.key) ?_
      rw [hdc]; simp [h.sub J hJ, hk]
  have hlp := Verif.Net.labelPerm_idx hperm hnk
  have hP : (dc.map ((fun x => x.2) ∘ fun I => ((bc ++ br).getD (destOf cs dis I) 0, destOf cs dis I))) =
      (keys dc).map fun x => (keys cs).idxOf x := by
    simp only [keys, List.map_map]
    refine List.map_congr_left fun I hI => ?_
    have hk : I.key ∈ keys cs := by
      rw [hdc] at hI; simpa using (List.mem_filter.1 hI).2
    simp only [Function.comp, destOf]
    rw [if_pos hk]; rfl
  have hlen : (keys dc).length = cs.length := by rw [hperm.length_eq]; simp [keys]
  obtain ⟨r, h1, h2, h3⟩ := Verif.Tensor.C16_permute _ hlp.1
    (dc.map ((fun x => x.1) ∘ fun I => ((bc ++ br).getD (destOf cs dis I) 0, destOf cs dis I)))
    (List.replicate cs.length 0) (by simp [keys]) (by simp [hlen])
  rw [hP]
  unfold Verif.Tensor.Permutation.permute at h1
  rw [h1]
  congr 1
  refine get_of_perm hlp.1 h2 (by rw [hc, ← h.len]; simp [hlen]) ?_
  intro n d hd
  rw [h3 n d hd]
  have hdlt : d < cs.length := by
    have := hlp.1.lt (List.mem_of_getElem? hd); simpa [hlen] using this
  have hn : n < dc.length := by
    have := (List.getElem?_eq_some_iff.1 hd).1; simpa [keys] using this
  have hkn : dc[n].key ∈ keys cs := by
    have hm : dc[n] ∈ dis.filter fun i => decide (i.key ∈ keys cs) := by rw [← hdc]; exact List.getElem_mem hn
    simpa using (List.mem_filter.1 hm).2
  have hdest : destOf cs dis dc[n] = d := by
    unfold destOf
    rw [if_pos hkn]
    have := hd
    simp only [List.getElem?_map, show keys dc = dc.map Index.key from rfl] at this
    rw [List.getElem?_eq_getElem hn] at this
    exact Option.some.inj this
  rw [List.getElem?_map, List.getElem?_eq_getElem hn]
  simp only [Option.map_some, Function.comp, hdest]
  rw [List.getD_eq_getElem?_getD, List.getElem?_append_left (by rw [hc, ← h.len]; exact hdlt),
    List.getElem?_eq_getElem (by rw [hc, ← h.len]; exact hdlt)]
  rfl

end

/-! ## Writing into one block -/

section
variable {K : Type*} [CommRing K]

theorem rank_inj {ds i j : List Nat} (hi : Valid ds i) (hj : Valid ds j) (h : rank ds i = rank ds j) : i = j := by
  rw [← unrank_rank hi, ← unrank_rank hj, h]

/-- What it means for the elements to write the positions `T` of one block. -/
theorem writeBlock_spec {is : IndexSet} {d : QDense K} (hW : WF is d.offsets d.size) {b0 : Block} (hb0 : Valid (nb is) b0) {no : Nat}
    (hno : getBlock d b0 = some no) (T : List Nat → Prop) [DecidablePred T] (hT : ∀ w, T w → Valid (bext is b0) w) (f : List Nat → K)
    {data : Int → K} (h1 : ∀ w, T w → data ((no + rank (bext is b0) w : Nat) : Int) = f w)
    (h2 : ∀ a : Nat, (∀ w, T w → no + rank (bext is b0) w ≠ a) → data (a : Int) = d.data (a : Int))
    {b : Block} {u : List Nat} (hb : Valid (nb is) b) (hu : Valid (bext is b) u) :
    elem { d with data := data } is b u = if b = b0 ∧ T u then f u else elem d is b u := by
  have hm0 := getBlock_some hW hb0 hno
  refine elem_congr (d := d) (d' := { d with data := data }) rfl rfl ?_ ?_
  · intro o ho
    have hmem := getBlock_some hW hb ho
    dsimp only
    by_cases he : b = b0
    · subst he
      have : o = no := by rw [hno] at ho; exact (Option.some.inj ho).symm
      subst this
      by_cases hTu : T u
      · rw [if_pos ⟨rfl, hTu⟩, h1 u hTu]
      · rw [if_neg (fun h => hTu h.2), h2]
        · unfold elem; rw [ho]
        · intro w hw e
          have : rank (bext is b) w = rank (bext is b) u := by omega
          rw [rank_inj (hT w hw) hu this] at hw
          exact hTu hw
    · rw [if_neg (fun h => he h.1), h2]
      · unfold elem; rw [ho]
      · intro w hw e
        have hd := hW.disjoint hmem hm0 (by intro e; exact he (congrArg BlOf.block e))
        unfold bdim at hd
        dsimp only at hd
        have hr1 := rank_lt (hT w hw)
        have hr2 := rank_lt hu
        omega
  · intro hn
    have hnb : ¬ (b = b0 ∧ T u) := by
      rintro ⟨rfl, _⟩
      rw [hno] at hn; exact absurd hn (by simp)
    rw [if_neg hnb]
    unfold elem; rw [hn]

/-! ## Flux -/

theorem fluxVal_append (is js : IndexSet) (b c : Block) (h : b.length = is.length) (n : Verif.QN.Name) :
    fluxVal (is ++ js) (b ++ c) n = fluxVal is b n + fluxVal js c n := by
  unfold fluxVal
  rw [List.zipWith_append (by omega), List.sum_append]

theorem fluxVal_perm {P : List Nat} {dis pis : IndexSet} (h : LabelPerm P dis pis) {b : Block} (hb : b.length = pis.length)
    (n : Verif.QN.Name) : fluxVal dis (pk P b) n = fluxVal pis b n := by
  have hzip : ∀ (is : IndexSet) (b : Block), fluxVal is b n =
      ((is.zip b).map fun p => ((p.1.qns.getD p.2 (Verif.QN.QN.default, 0)).1).val n * p.1.dir).sum := by
    intro is b
    unfold fluxVal
    rw [List.zip_eq_zipWith, List.map_zipWith]
  rw [hzip, hzip]
  apply List.Perm.sum_eq
  apply List.Perm.map
  have hl1 : P.length = dis.length := h.2.1
  have hl2 : dis.length = pis.length := h.2.2.1
  have e : dis.zip (pk P b) = P.map fun d => ((pis.zip b)[d]?).getD (⟨0, 0, 0, Verif.TagSet.TagSet.default, []⟩, 0) := by
    apply List.ext_getElem?
    intro i
    by_cases hi : i < P.length
    · have hPi := List.getElem?_eq_getElem hi
      have hd : P[i] < pis.length := by rw [← hl2, ← hl1]; exact h.1.lt (List.getElem_mem hi)
      have hx := h.2.2.2 i _ hPi
      have hb' := pk_get hPi (l := b) (by omega)
      have hz : (dis.zip (pk P b))[i]? = some (pis[P[i]], b[P[i]]'(by omega)) := by
        rw [List.getElem?_zip_eq_some, ← hx, hb']
        exact ⟨List.getElem?_eq_getElem hd, List.getElem?_eq_getElem _⟩
      rw [List.getElem?_map, hPi, hz]
      simp [List.getElem?_eq_getElem (show P[i] < (pis.zip b).length by simp; omega)]
    · rw [List.getElem?_eq_none (by simp [pk_length]; omega), List.getElem?_eq_none (by simp; omega)]
  have e2 : pis.zip b = (List.range P.length).map fun d => ((pis.zip b)[d]?).getD (⟨0, 0, 0, Verif.TagSet.TagSet.default, []⟩, 0) := by
    apply List.ext_getElem (by simp; omega)
    intro i h1 h2
    simp [List.getElem?_eq_getElem h1]
  rw [e]
  conv_rhs => rw [e2]
  exact List.Perm.map _ h.1

/-- All blocks of the storage have the same flux. -/
def HasFlux (M : Verif.QN.Name → Int) (is : IndexSet) (d : QDense K) : Prop :=
  ∀ o ∈ d.offsets, ∀ o' ∈ d.offsets, ∀ n, norm (M n) (fluxVal is o.block n) = norm (M n) (fluxVal is o'.block n)

omit [CommRing K] in
theorem calcDiv_ok {M : Verif.QN.Name → Int} {u : List Verif.QN.Name} {is : IndexSet} (hok : SectorsOK M u is) {d : QDense K}
    (hW : WF is d.offsets d.size) (hne : is ≠ []) (hF : HasFlux M is d) :
    ∃ div, calcDiv is d = .ok div ∧ IsQN M div ∧
      ∀ o ∈ d.offsets, ∀ n, norm (M n) (fluxVal is o.block n) = div.val n := by
  unfold calcDiv
  cases is with
  | nil => exact absurd rfl hne
  | cons I is =>
    cases ho : d.offsets with
    | nil => exact ⟨_, rfl, Verif.QN.isQN_default M, by simp⟩
    | cons o l =>
      have hv : Valid (nb (I :: is)) o.block := hW.valid o (by rw [ho]; simp)
      refine ⟨_, blockQN_ok hv _, ?_⟩
      obtain ⟨k1, k2⟩ := fluxOf_val hok hv (Verif.QN.isQN_default M)
        (by intro v hv hv2; have := (List.mem_replicate.1 hv).2; subst this; cases hv2)
      refine ⟨k1, ?_⟩
      intro o' ho' n
      have e := k2 n
      rw [isQN_val_norm k1 n] at e
      have h0 : (Verif.QN.QN.default).val n = 0 := by
        rw [(Verif.QN.WF.default M).val]; rfl
      rw [h0, Int.zero_add] at e
      rw [e]
      exact hF o' (by rw [ho]; exact ho') o (by rw [ho]; simp) n

/-! ## One block of `combine` -/

theorem pk_surj {P : List Nat} (hP : IsPerm P) {b : List Nat} (hb : b.length = P.length) :
    ∃ a, a.length = P.length ∧ pk P a = b := by
  obtain ⟨r, _, h2, h3⟩ := Verif.Tensor.C16_permute P hP b b hb hb
  refine ⟨r, h2, ?_⟩
  apply List.ext_getElem?
  intro i
  by_cases hi : i < P.length
  · have hPi := List.getElem?_eq_getElem hi
    rw [pk_get hPi (by rw [h2]; exact hP.lt (List.getElem_mem hi)), h3 i _ hPi]
  · rw [List.getElem?_eq_none (by simp [pk_length]; omega), List.getElem?_eq_none (by omega)]

theorem Match.valid_rev {P : List Nat} {is1 is2 : IndexSet} (h : Match P is1 is2) {a : Block} (hl : a.length = P.length)
    (ha : Valid (nb is2) (pk P a)) : Valid (nb is1) a := by
  obtain ⟨h1, h2⟩ := valid_iff.1 ha
  refine valid_iff.2 ⟨by rw [hl, h.len1]; simp [nb], ?_⟩
  intro d x k hx hk
  have hd : d < P.length := by rw [← hl]; exact (List.getElem?_eq_some_iff.1 hx).1
  obtain ⟨i, hi, hi'⟩ := List.getElem_of_mem (h.perm.mem hd)
  have hPi : P[i]? = some d := by rw [List.getElem?_eq_getElem hi, hi']
  obtain ⟨I, J, e1, e2, e3⟩ := h.get hPi
  refine h2 i x k (by rw [pk_get hPi (by omega)]; exact hx) ?_
  simp only [nb, List.getElem?_map, e1, Option.map_some, Option.some.injEq] at hk
  simp only [nb, List.getElem?_map, e2, Option.map_some, Option.some.injEq]
  rw [← hk, ← szs_length, ← szs_length, e3]

theorem bext_append (is js : IndexSet) (b c : Block) (h : b.length = is.length) :
    bext (is ++ js) (b ++ c) = bext is b ++ bext js c := by
  unfold bext; rw [List.zipWith_append (by omega)]

theorem valid_append {ds es i j : List Nat} (h1 : Valid ds i) (h2 : Valid es j) : Valid (ds ++ es) (i ++ j) :=
  List.rel_append h1 h2

theorem valid_split {ds es k : List Nat} (h : Valid (ds ++ es) k) :
    ∃ i j, k = i ++ j ∧ Valid ds i ∧ Valid es j := by
  induction ds generalizing k with
  | nil => exact ⟨[], k, rfl, .nil, h⟩
  | cons d ds ih =>
    cases k with
    | nil => exact absurd (valid_length h) (by simp)
    | cons x k =>
      obtain ⟨h1, h2⟩ := List.forall₂_cons.1 h
      obtain ⟨i, j, e, h3, h4⟩ := ih h2
      exact ⟨x :: i, j, by rw [e]; rfl, .cons h1 h3, h4⟩

/-- The copy of a block with its indices permuted (`Ten{permute(dref,dperm)}`). -/
theorem permCopy_spec {P : List Nat} (hP : IsPerm P) {E : List Nat} (hE : E.length = P.length) (hpos : ∀ x ∈ E, 0 < x)
    (hmax : (E.prod : Int) ≤ offMax) (fuel : Nat) (hf : E.prod < fuel) (mf mt : Int → K) :
    ∃ V m, permuteRange (Range.init (pk P E)) P = .ok V ∧ V.extents = E ∧
      runTransform fuel (fun b _ => b) V (Range.init V.extents) mf mt = some (.ok m) ∧
      ∀ j, Valid E j → m (rank E j : Nat) = mf (rank (pk P E) (pk P j) : Nat) := by
  have hle : (Range.init (pk P E)).length = P.length := by
    have := congrArg List.length (extents_init (pk P E))
    simpa [Range.extents, pk_length] using this
  obtain ⟨V, hV, hVl, hV2, hV3⟩ := C17_permute_view (Range.init (pk P E)) P hP hle.symm
  have hVe : V.extents = E := by
    refine get_of_perm hP (by simp [Range.extents, hVl, hle]) hE ?_
    intro n d hd
    have h1 := hV2 n d hd
    have h2 : (Range.extents (Range.init (pk P E)))[n]? = (pk P E)[n]? := by rw [extents_init]
    simp only [Range.extents, List.getElem?_map] at h2 ⊢
    rw [h1, h2, pk_get hd (by rw [hE]; exact hP.lt (List.mem_of_getElem? hd))]
  have hinj : ∀ i j, Valid (Range.init V.extents).extents i → Valid (Range.init V.extents).extents j →
      addr (Range.init V.extents) i = addr (Range.init V.extents) j → i = j := by
    intro i j hi hj he
    rw [extents_init] at hi hj
    rw [addr_init (valid_length hi), addr_init (valid_length hj)] at he
    exact rank_inj hi hj he
  obtain ⟨l, e1, e2, _⟩ := C17_transform (fun (b _ : K) => b) V (Range.init V.extents) (extents_init _).symm
    (by rw [hVe]; exact hpos) (by rw [hVe]; exact hmax) hinj fuel (by rw [hVe]; exact hf) mf mt
  refine ⟨V, _, hV, hVe, by unfold runTransform; rw [e1]; rfl, ?_⟩
  intro j hj
  have h := e2 j (by rw [hVe]; exact hj)
  rw [hVe] at h
  rw [addr_init (valid_length hj)] at h
  dsimp only
  rw [h]
  congr 2
  rw [hV3 (pk P j) j (by rw [pk_length, hle]) (by rw [valid_length hj, hE, hle]) ?_, addr_init (by simp [pk_length])]
  intro n d hd
  exact (pk_get hd (by rw [valid_length hj, hE]; exact hP.lt (List.mem_of_getElem? hd))).symm

theorem combineStep_spec {M : Verif.QN.Name → Int} {us : List Verif.QN.Name} {c : Index} {cs inds dis : IndexSet} (h : CombinesInds c cs inds dis)
    (hcs : nb cs = nb inds)
    {store : List BlockRange} (hC : CombinerOK M us inds c store) (hpos : PosSectors dis)
    {d nd : QDense K} (hd : WF dis d.offsets d.size) (hnd : WF (c :: restOf cs dis) nd.offsets nd.size)
    {fuel : Nat} (hf : d.size < fuel) (hmax : (d.size : Int) ≤ offMax) (fresh : Int → K) {bc br : Block} {doff : Nat}
    (hbc : Valid (nb inds) bc) (hbr : Valid (nb (restOf cs dis)) br)
    (hio : (⟨pk (dis.map (destOf cs dis)) (bc ++ br), doff⟩ : BlOf) ∈ d.offsets)
    {brg : BlockRange} (hbrg : store[rank (nb inds) bc]? = some brg) {no : Nat} (hno : getBlock nd (brg.block :: br) = some no) :
    ∃ nd', combineStep fuel fresh (dis.map (destOf cs dis)) cs (c :: restOf cs dis) dis store d nd
        ⟨pk (dis.map (destOf cs dis)) (bc ++ br), doff⟩ = some (.ok nd') ∧
      nd'.offsets = nd.offsets ∧ nd'.size = nd.size ∧
      ∀ n b' v u', Valid (nb (c :: restOf cs dis)) (n :: b') → Valid (bext (c :: restOf cs dis) (n :: b')) (v :: u') →
        elem nd' (c :: restOf cs dis) (n :: b') (v :: u') =
          if (n = brg.block ∧ b' = br) ∧ brg.start ≤ v ∧ v < brg.start + brg.extent then
            elem d dis (pk (dis.map (destOf cs dis)) (bc ++ br))
              (pk (dis.map (destOf cs dis)) (unrank (bext inds bc) (v - brg.start) ++ u'))
          else elem nd (c :: restOf cs dis) (n :: b') (v :: u') := by
  set P := dis.map (destOf cs dis) with hPdef
  set rest := restOf cs dis with hrest
  have hM : Match P (inds ++ rest) dis := h.matches
  have hlc : bc.length = inds.length := by rw [valid_length hbc]; simp [nb]
  have hlr : br.length = rest.length := by rw [valid_length hbr]; simp [nb]
  have hva : Valid (nb (inds ++ rest)) (bc ++ br) := by
    simp only [nb, List.map_append]; exact valid_append hbc hbr
  have hvd : Valid (nb dis) (pk P (bc ++ br)) := hM.valid hva
  have hE : bext (inds ++ rest) (bc ++ br) = bext inds bc ++ bext rest br := bext_append _ _ _ _ hlc
  have hposp : PosSectors (inds ++ rest) := fun I hI => hpos I (h.perm.mem_iff.2 hI)
  have hEpos := bext_pos hposp hva
  have hEl : (bext (inds ++ rest) (bc ++ br)).length = P.length := by rw [bext_length hva, hM.len1]
  have hgd : getBlock d (pk P (bc ++ br)) = some doff := getBlock_mem hd hio
  have hEprod : (bext (inds ++ rest) (bc ++ br)).prod ≤ d.size := by
    have h1 := (hd.tile.bounds _ hio).2
    unfold bdim at h1
    dsimp only at h1
    rw [hM.bext hva] at h1
    rw [← (pk_perm hM.perm hEl).prod_eq]
    omega
  obtain ⟨V, m, hV, hVe, hm, hmv⟩ := permCopy_spec hM.perm hEl hEpos (by omega) fuel (by omega)
    (fun a => d.data (doff + a)) fresh
  obtain ⟨br0, q, mm, g1, g2, _, g4, g5⟩ := hC.block bc hbc
  rw [hbrg] at g1
  obtain rfl := Option.some.inj g1
  have hn : brg.block < c.nblock := (List.getElem?_eq_some_iff.1 g2).1
  have hbs : bsize c brg.block = mm := by
    simp only [bsize, szs, List.getD_eq_getElem?_getD, List.getElem?_map, g2, Option.map_some, Option.getD_some]
  have hvn : Valid (nb (c :: rest)) (brg.block :: br) := by
    simp only [nb, List.map_cons]; exact .cons hn hbr
  have hen : bext (c :: rest) (brg.block :: br) = mm :: bext rest br := by
    simp only [bext, List.zipWith_cons_cons, hbs]
  have hG := groupIndsRange_init [] (bext inds bc) (bext rest br) (by rw [List.nil_append, ← hE]; exact hEpos)
  simp only [List.nil_append, List.length_nil, Nat.zero_add, List.singleton_append] at hG
  have hgl : (bext inds bc).length = cs.length := by rw [bext_length hbc, h.len]
  have hgbr : getBlockRange cs store bc = .ok brg := by
    unfold getBlockRange
    rw [show cs.map (·.nblock) = nb inds from hcs,
      offset_zero_eq _ _ (by rw [valid_length hbc, ← congrArg List.length (extents_init (nb inds))]; simp [Range.extents]),
      addr_init (valid_length hbc), Res.bind_ok, if_neg (by omega), Int.toNat_natCast, hbrg]
  -- the view of the new block
  have hS0 : (Range.init (mm :: bext rest br))[0]? = some ⟨mm, 1⟩ := by
    rfl
  set S : Range := (Range.init (mm :: bext rest br)).set 0 ⟨brg.extent, 1⟩ with hS
  have hsub : subIndex (Range.init (mm :: bext rest br)) 0 brg.start (brg.start + brg.extent) = .ok (brg.start, S) := by
    unfold subIndex
    rw [hS0]
    simp [hS]
  have hSe : S.extents = brg.extent :: bext rest br := by
    have := extents_init (mm :: bext rest br)
    simp only [Range.extents] at this
    simp only [hS, Range.extents, List.map_set, this, List.set_cons_zero]
  have hSa : ∀ x u', u'.length = (bext rest br).length →
      brg.start + addr S (x :: u') = rank (mm :: bext rest br) ((brg.start + x) :: u') := by
    intro x u' hu'
    obtain ⟨off, V', e1, e2, _⟩ := C58_subIndex (Range.init (mm :: bext rest br)) 0 brg.start (brg.start + brg.extent) _ hS0
      (x :: u') x rfl
    rw [hsub] at e1
    obtain ⟨rfl, rfl⟩ := Prod.mk.inj (Res.ok.inj e1)
    rw [e2, List.set_cons_zero, addr_init (by simp [hu'])]
  have hGpos : ∀ x ∈ (Range.init ((bext inds bc).prod :: bext rest br)).extents, 0 < x := by
    rw [extents_init]
    intro x hx
    rcases List.mem_cons.1 hx with rfl | hx
    · exact List.prod_pos fun y hy => hEpos y (by rw [hE]; exact List.mem_append_left _ hy)
    · exact hEpos x (by rw [hE]; exact List.mem_append_right _ hx)
  have hGe : (Range.init ((bext inds bc).prod :: bext rest br)).extents = S.extents := by
    rw [extents_init, hSe, g4]; rfl
  have hGprod : (Range.init ((bext inds bc).prod :: bext rest br)).extents.prod = (bext (inds ++ rest) (bc ++ br)).prod := by
    rw [extents_init, hE, List.prod_cons, List.prod_append]
  obtain ⟨l2, f1, f2, f3⟩ := C17_transform (fun (b _ : K) => b) (Range.init ((bext inds bc).prod :: bext rest br)) S hGe hGpos
    (by rw [hGprod]; omega) (by
      intro i j hi hj he
      rw [hSe] at hi hj
      cases i with
      | nil => exact absurd (valid_length hi) (by simp)
      | cons x i =>
      cases j with
      | nil => exact absurd (valid_length hj) (by simp)
      | cons y j =>
      obtain ⟨hi1, hi2⟩ := List.forall₂_cons.1 hi
      obtain ⟨hj1, hj2⟩ := List.forall₂_cons.1 hj
      have h1 := hSa x i (valid_length hi2)
      have h2 := hSa y j (valid_length hj2)
      rw [he, h2] at h1
      have := rank_inj (ds := mm :: bext rest br) (.cons (by omega) hj2) (.cons (by omega) hi2) h1
      simp only [List.cons.injEq] at this
      rw [← this.2, show x = y by omega])
    fuel (by rw [hGprod]; omega) m (fun a => nd.data (no + brg.start + a))
  refine ⟨{ nd with data := fun a => applyPairs (fun (b _ : K) => b) m l2 (fun a => nd.data (no + brg.start + a)) (a - (no + brg.start)) },
    ?_, rfl, rfl, ?_⟩
  · unfold combineStep
    dsimp only
    rw [blockExtents_ok hvd, hM.bext hva]
    dsimp only
    rw [hV]
    dsimp only
    rw [hm]
    simp only [Run.bind, hVe, hE, ← hgl, hG]
    rw [hgl, combBlock_pk h hlc, Res.bind_ok, hgbr]
    dsimp only
    rw [uncombined_pk h hlc hlr, blockExtents_ok hvn, hen, hno]
    dsimp only
    rw [hsub]
    dsimp only
    unfold runTransform
    rw [f1]
    rfl
  · intro n b' v u' hvb hvu
    classical
    have hW := writeBlock_spec hnd hvn hno
      (fun w => Valid (bext (c :: rest) (brg.block :: br)) w ∧ brg.start ≤ w.headD 0 ∧ w.headD 0 < brg.start + brg.extent)
      (fun w hw => hw.1)
      (fun w => elem d dis (pk P (bc ++ br)) (pk P (unrank (bext inds bc) (w.headD 0 - brg.start) ++ w.tail)))
      (data := fun a => applyPairs (fun (b _ : K) => b) m l2 (fun a => nd.data (no + brg.start + a)) (a - (no + brg.start)))
      ?_ ?_ hvb hvu
    · rw [hW]
      simp only [List.cons.injEq, List.headD_cons, List.tail_cons]
      by_cases hc1 : n = brg.block ∧ b' = br
      · obtain ⟨rfl, rfl⟩ := hc1
        simp [hvu]
      · rw [if_neg (fun hh => hc1 hh.1), if_neg (fun hh => hc1 hh.1)]
    · rintro w ⟨hw1, hw2, hw3⟩
      cases w with
      | nil => exact absurd (valid_length hw1) (by rw [hen]; simp)
      | cons x w' =>
        simp only [List.headD_cons, List.tail_cons] at hw2 hw3 ⊢
        rw [hen] at hw1 ⊢
        obtain ⟨_, hw'⟩ := List.forall₂_cons.1 hw1
        have hx : x - brg.start < (bext inds bc).prod := by rw [g4] at hw3; unfold bdim at hw3; omega
        have hvs : Valid (Range.init ((bext inds bc).prod :: bext rest br)).extents ((x - brg.start) :: w') := by
          rw [extents_init]; exact .cons hx hw'
        have e1 : ((no + rank (mm :: bext rest br) (x :: w') : Nat) : Int) - (no + brg.start) = (addr S ((x - brg.start) :: w') : Nat) := by
          have := hSa (x - brg.start) w' (valid_length hw')
          rw [show brg.start + (x - brg.start) = x by omega] at this
          rw [← this]; push_cast; ring
        rw [e1, f2 _ hvs, addr_init (by simpa using valid_length hw')]
        have hvu' := unrank_valid hx
        have e2 : rank ((bext inds bc).prod :: bext rest br) ((x - brg.start) :: w') =
            rank (bext (inds ++ rest) (bc ++ br)) (unrank (bext inds bc) (x - brg.start) ++ w') := by
          rw [hE, rank_append _ _ _ _ (valid_length hvu'), rank_unrank hx]; rfl
        rw [e2, hmv _ (by rw [hE]; exact valid_append hvu' hw')]
        unfold elem
        rw [hgd, hM.bext hva]
        dsimp only
        push_cast
        rfl
    · intro a ha
      rw [f3]
      · congr 1; ring
      · intro i hi he
        rw [hGe, hSe] at hi
        cases i with
        | nil => exact absurd (valid_length hi) (by simp)
        | cons x i =>
        obtain ⟨hi1, hi2⟩ := List.forall₂_cons.1 hi
        refine ha ((brg.start + x) :: i) ⟨by rw [hen]; exact .cons (by omega) hi2, by simp, by simpa using hi1⟩ ?_
        rw [hen, ← hSa x i (valid_length hi2)]
        omega

/-- The loop over the blocks of `combine`. -/
theorem combineFold_spec {M : Verif.QN.Name → Int} {us : List Verif.QN.Name} {c : Index} {cs inds dis : IndexSet} (h : CombinesInds c cs inds dis)
    (hcs : nb cs = nb inds)
    {store : List BlockRange} (hC : CombinerOK M us inds c store) (hpos : PosSectors dis)
    {d : QDense K} (hd : WF dis d.offsets d.size)
    {fuel : Nat} (hf : d.size < fuel) (hmax : (d.size : Int) ≤ offMax) (fresh : Int → K) (l : List BlOf) {nd : QDense K}
    (hnd : WF (c :: restOf cs dis) nd.offsets nd.size)
    (hl : ∀ o ∈ l, o ∈ d.offsets) (hnodup : (l.map (·.block)).Nodup)
    (hB : ∀ bc br brg, Valid (nb inds) bc → Valid (nb (restOf cs dis)) br → store[rank (nb inds) bc]? = some brg →
      pk (dis.map (destOf cs dis)) (bc ++ br) ∈ l.map (·.block) → ∃ no, getBlock nd (brg.block :: br) = some no) :
    ∃ nd', runFold (combineStep fuel fresh (dis.map (destOf cs dis)) cs (c :: restOf cs dis) dis store d) nd l = some (.ok nd') ∧
      nd'.offsets = nd.offsets ∧ nd'.size = nd.size ∧
      ∀ bc br brg x ur, Valid (nb inds) bc → Valid (nb (restOf cs dis)) br → store[rank (nb inds) bc]? = some brg →
        x < brg.extent → Valid (bext (restOf cs dis) br) ur →
        elem nd' (c :: restOf cs dis) (brg.block :: br) ((brg.start + x) :: ur) =
          if pk (dis.map (destOf cs dis)) (bc ++ br) ∈ l.map (·.block) then
            elem d dis (pk (dis.map (destOf cs dis)) (bc ++ br)) (pk (dis.map (destOf cs dis)) (unrank (bext inds bc) x ++ ur))
          else elem nd (c :: restOf cs dis) (brg.block :: br) ((brg.start + x) :: ur) := by
  induction l generalizing nd with
  | nil => exact ⟨nd, rfl, rfl, rfl, by simp⟩
  | cons o l ih =>
    set P := dis.map (destOf cs dis) with hP
    have hM : Match P (inds ++ restOf cs dis) dis := h.matches
    have hov := hd.valid o (hl o (by simp))
    obtain ⟨a, ha1, ha2⟩ := pk_surj hM.perm (b := o.block) (by rw [valid_length hov, hM.len2]; simp [nb])
    have hav : Valid (nb (inds ++ restOf cs dis)) a := hM.valid_rev ha1 (by rw [ha2]; exact hov)
    obtain ⟨bc0, br0, ha, hbc0, hbr0⟩ := valid_split (ds := nb inds) (es := nb (restOf cs dis)) (by
      simpa only [nb, List.map_append] using hav)
    obtain ⟨brg0, q0, m0, hs0, g2, _, g4, g5⟩ := hC.block bc0 hbc0
    have hob : o.block = pk P (bc0 ++ br0) := by rw [← ha, ha2]
    have ho : o = ⟨pk P (bc0 ++ br0), o.offset⟩ := by rw [← hob]
    obtain ⟨no, hno⟩ := hB bc0 br0 brg0 hbc0 hbr0 hs0 (by rw [← hob]; simp)
    obtain ⟨nd1, e1, e2, e3, e4⟩ := combineStep_spec h hcs hC hpos hd hnd hf hmax fresh hbc0 hbr0
      (by rw [← hP, ← ho]; exact hl o (by simp)) hs0 hno
    rw [← hP, ← ho] at e1
    rw [List.map_cons, List.nodup_cons] at hnodup
    obtain ⟨nd', f1, f2, f3, f4⟩ := ih (nd := nd1) (by rw [e2, e3]; exact hnd) (fun x hx => hl x (by simp [hx])) hnodup.2 (by
      intro bc br brg h1 h2 h3 h4
      obtain ⟨no', hno'⟩ := hB bc br brg h1 h2 h3 (by rw [List.map_cons]; exact List.mem_cons_of_mem _ h4)
      exact ⟨no', by rw [← hno']; unfold getBlock; rw [e2, e3]⟩)
    refine ⟨nd', by simp only [runFold, e1]; exact f1, by rw [f2, e2], by rw [f3, e3], ?_⟩
    intro bc br brg x ur hbc hbr hs hx hur
    rw [f4 bc br brg x ur hbc hbr hs hx hur]
    obtain ⟨brg1, q, m, hs1, k2, _, k4, k5⟩ := hC.block bc hbc
    rw [hs] at hs1
    obtain rfl := Option.some.inj hs1
    have hbn : brg.block < c.nblock := (List.getElem?_eq_some_iff.1 k2).1
    have hbs : bsize c brg.block = m := by
      simp only [bsize, szs, List.getD_eq_getElem?_getD, List.getElem?_map, k2, Option.map_some, Option.getD_some]
    rw [e4 brg.block br (brg.start + x) ur (by simp only [nb, List.map_cons]; exact .cons hbn hbr) (by
      simp only [bext, List.zipWith_cons_cons, hbs]
      exact .cons (by omega) hur)]
    rw [← hP]
    by_cases hsame : bc = bc0 ∧ br = br0
    · obtain ⟨rfl, rfl⟩ := hsame
      rw [hs] at hs0
      obtain rfl := Option.some.inj hs0
      rw [if_neg (by rw [← hob]; exact hnodup.1), if_pos ⟨⟨rfl, rfl⟩, by omega, by omega⟩,
        if_pos (by rw [List.map_cons, hob]; simp), Nat.add_sub_cancel_left]
    · have hne : pk P (bc ++ br) ≠ o.block := by
        intro e
        rw [hob] at e
        have := pk_inj hM.perm (by rw [hM.len1]; simp [valid_length hbc, valid_length hbr, nb])
          (by rw [hM.len1]; simp [valid_length hbc0, valid_length hbr0, nb]) e
        have := List.append_inj this (by rw [valid_length hbc, valid_length hbc0])
        exact hsame this
      have hcond : ¬ ((brg.block = brg0.block ∧ br = br0) ∧ brg0.start ≤ brg.start + x ∧ brg.start + x < brg0.start + brg0.extent) := by
        rintro ⟨⟨h1, h2⟩, h3, h4⟩
        obtain ⟨b', _, hu⟩ := hC.cover brg.block q m k2 (brg.start + x) (by omega)
        have u1 := hu bc ⟨hbc, brg, hs, rfl, by omega, by omega⟩
        have u2 := hu bc0 ⟨hbc0, brg0, hs0, h1.symm, h3, h4⟩
        exact hsame ⟨u1.trans u2.symm, h2⟩
      rw [if_neg hcond]
      simp only [List.map_cons, List.mem_cons, hne, false_or]

/-- `combine`, elements block by block. -/
theorem qcombine_ok {M : Verif.QN.Name → Int} {us : List Verif.QN.Name} {c : Index} {cs inds dis : IndexSet} (h : CombinesInds c cs inds dis)
    (hcs : nb cs = nb inds) (hdir : c.dir = 1 ∨ c.dir = -1)
    {store : List BlockRange} (hC : CombinerOK M us inds c store) (hpos : PosSectors dis) (hok : SectorsOK M us dis)
    (hsec : ∀ I ∈ dis, 0 < I.nblock) (hsecc : 0 < c.nblock) (hne : dis ≠ [])
    {d : QDense K} (hd : WF dis d.offsets d.size) (hF : HasFlux M dis d)
    {fuel : Nat} (hf : d.size < fuel) (hmax : (d.size : Int) ≤ offMax)
    (hf2 : (nb (c :: restOf cs dis)).prod < fuel) (hmax2 : ((nb (c :: restOf cs dis)).prod : Int) ≤ offMax) (fresh : Int → K) :
    ∃ N, qcombine fuel fresh dis (c :: cs) store d = some (.ok (c :: restOf cs dis, N)) ∧
      WF (c :: restOf cs dis) N.offsets N.size ∧ HasFlux M (c :: restOf cs dis) N ∧
      (d.offsets ≠ [] → ∀ o ∈ d.offsets, ∀ o' ∈ N.offsets, ∀ n,
        norm (M n) (fluxVal dis o.block n) = norm (M n) (fluxVal (c :: restOf cs dis) o'.block n)) ∧
      ∀ bc br brg x ur, Valid (nb inds) bc → Valid (nb (restOf cs dis)) br → store[rank (nb inds) bc]? = some brg →
        x < brg.extent → Valid (bext (restOf cs dis) br) ur →
        elem N (c :: restOf cs dis) (brg.block :: br) ((brg.start + x) :: ur) =
          elem d dis (pk (dis.map (destOf cs dis)) (bc ++ br)) (pk (dis.map (destOf cs dis)) (unrank (bext inds bc) x ++ ur)) := by
  have hM := h.matches
  have hoN : SectorsOK M us (c :: restOf cs dis) := by
    refine ⟨hok.1, fun I hI => ?_⟩
    rcases List.mem_cons.1 hI with rfl | hI
    · exact hC.sectors.2 I (by simp)
    · exact hok.2 I (List.mem_filter.1 hI).1
  obtain ⟨div, hdiv1, hdiv2, hdiv3⟩ := calcDiv_ok hok hd hne hF
  obtain ⟨nd, n1, n2, n3, n4⟩ := C21_ofDiv (K := K) (is := c :: restOf cs dis) (by simp) (by
    intro I hI
    rcases List.mem_cons.1 hI with rfl | hI
    · exact hsecc
    · exact hsec I (List.mem_filter.1 hI).1) hoN hdiv2 fuel hf2 hmax2
  have hval : ∀ is : IndexSet, ∀ b, Valid (nb is) b ↔ List.Forall₂ (fun (x : Nat) (I : Index) => x < I.qns.length) b is := by
    intro is b
    unfold Valid nb
    rw [List.forall₂_map_right_iff]
    rfl
  have hzero : ∀ b u, elem nd (c :: restOf cs dis) b u = 0 := by
    intro b u; unfold elem; split
    · exact n3 _
    · rfl
  obtain ⟨N, f1, f2, f3, f4⟩ := combineFold_spec h hcs hC hpos hd hf hmax fresh d.offsets n2 (fun _ ho => ho) (sortedOff_nodup hd.sorted) (by
    intro bc br brg hbc hbr hs hmem
    obtain ⟨o, ho, hob⟩ := List.mem_map.1 hmem
    obtain ⟨brg1, q, m, hs1, k2, k3, k4, k5⟩ := hC.block bc hbc
    rw [hs] at hs1
    obtain rfl := Option.some.inj hs1
    have hbn : brg.block < c.nblock := (List.getElem?_eq_some_iff.1 k2).1
    have hv : Valid (nb (c :: restOf cs dis)) (brg.block :: br) := by simp only [nb, List.map_cons]; exact .cons hbn hbr
    obtain ⟨o', ho', hob'⟩ := (n4 (brg.block :: br)).2 ⟨(hval _ _).1 hv, by
      intro n
      rw [← hdiv3 o ho n, hob, fluxVal_perm h.labelPerm (by simp [valid_length hbc, valid_length hbr, nb]),
        fluxVal_append _ _ _ _ (by simp [valid_length hbc, nb])]
      have e1 : fluxVal (c :: restOf cs dis) (brg.block :: br) n = q.val n * c.dir + fluxVal (restOf cs dis) br n := by
        unfold fluxVal
        simp only [List.zipWith_cons_cons, List.sum_cons, List.getD_eq_getElem?_getD, k2, Option.getD_some]
      have hm : ∀ m v w : Int, norm m (norm m v * w) = norm m (v * w) := by
        intro m v w
        unfold norm; split
        · rw [Int.mul_emod, Int.emod_emod_of_dvd _ (Int.dvd_refl _), ← Int.mul_emod]
        · rfl
      rw [e1, k3 n, ← Verif.QN.norm_add_norm_left, hm, Verif.QN.norm_add_norm_left]
      congr 2
      rcases hdir with hdir | hdir <;> rw [hdir] <;> ring⟩
    have := getBlock_mem n2 ho'
    rw [hob'] at this
    exact ⟨_, this⟩)
  have hNf : ∀ o' ∈ N.offsets, ∀ n, norm (M n) (fluxVal (c :: restOf cs dis) o'.block n) = div.val n := by
    intro o' ho' n
    rw [f2] at ho'
    exact ((n4 o'.block).1 ⟨o', ho', rfl⟩).2 n
  refine ⟨N, ?_, by rw [f2, f3]; exact n2, ?_, ?_, ?_⟩
  · unfold qcombine
    dsimp only
    have hP : combPerm (c :: cs) dis cs.length = .ok (dis.map (destOf cs dis)) :=
      combPerm_ok (by rw [h.keysEq]; exact h.indsNodup) dis cs.length h.notc h.nodup
    have hu : uncombined cs.length dis (dis.map (destOf cs dis)) = restOf cs dis := by
      have := uncombined_map h (fun I => I)
      simpa using this
    rw [hP, hdiv1]
    simp only [Res.bind_ok, hu, n1, Run.bind, f1]
  · intro o ho o' ho' n
    rw [hNf o ho n, hNf o' ho' n]
  · intro _ o ho o' ho' n
    rw [hdiv3 o ho n, hNf o' ho' n]
  · intro bc br brg x ur hbc hbr hs hx hur
    rw [f4 bc br brg x ur hbc hbr hs hx hur]
    by_cases hmem : pk (dis.map (destOf cs dis)) (bc ++ br) ∈ d.offsets.map (·.block)
    · rw [if_pos hmem]
    · rw [if_neg hmem, hzero]
      have hva : Valid (nb (inds ++ restOf cs dis)) (bc ++ br) := by
        simp only [nb, List.map_append]; exact valid_append hbc hbr
      unfold elem
      rw [getBlock_notMem hd (hM.valid hva) (by
        intro o ho e
        exact hmem (by rw [← e]; exact List.mem_map_of_mem ho))]

end

end Verif.QDense
