import Verif.QDense.DiagContractLemmas

/-!
# The loop over pairs of blocks of a block-sparse and a diagonal tensor
-/

namespace Verif.QDense

open Verif.Index (Index IndexSet)
open Verif.Index.IndexSet (keys computeLabels contractIS Key prodInds)
open Verif.Tensor
open Verif.Tensor.Range
open Finset (sum_congr sum_comm mem_range sum_eq_zero sum_eq_single_of_mem range sum_add_distrib)
open Verif.Net (DG DS runSteps dot replaceIndex isReplaceDelta prodVal' contractDiagPartial contractDiagFull IsOK LabOK)

/-- The setting of the proofs: a diagonal tensor `d` whose indices have sectors of the sizes `zs`, a block-sparse tensor `t`, and the indices of the result. -/
structure DCtx {K : Type*} [CommRing K] (M : Verif.QN.Name → Int) (u : List Verif.QN.Name) (env : Key → List (Verif.QN.QN × Nat)) (zs : List Nat)
    (Tis : IndexSet) (d : DG K) (t : QDense K) (Nis : IndexSet) : Prop where
  T : GoodIs M u env Tis
  D : GoodIs M u env d.is
  hz : ∀ I ∈ d.is, szs I = zs
  ne : d.is ≠ []
  wf : WF Tis t.offsets t.size
  store : d.store = [] ∨ d.store.length = d.length
  len : d.length = zs.sum
  hN : Nis.Perm (Tis.filter (fun i => decide (i.key ∉ keys d.is)) ++ d.is.filter (fun i => decide (i.key ∉ keys Tis)))

theorem getD_lt {zs : List Nat} {n : Nat} (hn : n < zs.length) : zs.getD n 0 = zs[n] := by
  rw [List.getD_eq_getElem?_getD, List.getElem?_eq_getElem hn]; rfl

/-- Sector sizes of an index. -/
def szK (env : Key → List (Verif.QN.QN × Nat)) (k : Key) : List Nat := (env k).map (·.2)

theorem GoodIs.sz {M : Verif.QN.Name → Int} {u : List Verif.QN.Name} {env : Key → List (Verif.QN.QN × Nat)} {is : IndexSet} (h : GoodIs M u env is) :
    SzOK (szK env) is := fun I hI => by unfold szs szK; rw [h.env I hI]

section
variable {K : Type*} [CommRing K] [DecidableEq K]
variable {M : Verif.QN.Name → Int} {u : List Verif.QN.Name} {env : Key → List (Verif.QN.QN × Nat)} {zs : List Nat} {Tis Nis : IndexSet} {d : DG K} {t : QDense K}

/-- The block `n` of the diagonal tensor. -/
def dB (env : Key → List (Verif.QN.QN × Nat)) (zs : List Nat) (d : DG K) (n : Nat) : DG K :=
  ⟨bI (szK env) d.is fun _ => n, (d.store.drop (zs.take n).sum).take (zs.getD n 0), d.val, zs.getD n 0⟩

/-- The block of the block-sparse tensor at `ao`. -/
def tB (env : Key → List (Verif.QN.QN × Nat)) (Tis : IndexSet) (t : QDense K) (ao : BlOf) (β : Key → Nat) : DS K :=
  ⟨bI (szK env) Tis β, bdim Tis ao.block, fun x => t.data (ao.offset + x)⟩

/-- What a pair of blocks contributes to the element at `υ` in the block of the result. -/
def pv (zs : List Nat) (Tis : IndexSet) (d : DG K) (t : QDense K) (ao : BlOf) (n : Nat) (υ : Key → Nat) : K :=
  ∑ i ∈ range (zs.getD n 0), if ∀ k ∈ keys d.is, k ∉ keys Tis → υ k = i then
    d.at' ((zs.take n).sum + i) * t.data ((ao.offset + rank (bext Tis ao.block) (blk Tis fun k => if k ∈ keys d.is then i else υ k) : Nat) : Int) else 0

omit [DecidableEq K] in
theorem keys_dB (n : Nat) : keys (dB env zs d n).is = keys d.is := keys_bI (szK env) d.is fun _ => n

omit [DecidableEq K] in
theorem keys_tB (ao : BlOf) (β : Key → Nat) : keys (tB env Tis t ao β).is = keys Tis := keys_bI (szK env) Tis β

omit [DecidableEq K] in
theorem DCtx.szN (h : DCtx M u env zs Tis d t Nis) : SzOK (szK env) Nis := by
  intro I hI
  rcases List.mem_append.1 (h.hN.mem_iff.1 hI) with hI | hI
  · exact h.T.sz I (List.mem_filter.1 hI).1
  · exact h.D.sz I (List.mem_filter.1 hI).1

omit [DecidableEq K] in
theorem DCtx.szD (h : DCtx M u env zs Tis d t Nis) {k : Key} (hk : k ∈ keys d.is) : szK env k = zs := by
  obtain ⟨I, hI, rfl⟩ := List.mem_map.1 hk
  rw [← h.D.sz I hI, h.hz I hI]

omit [DecidableEq K] in
theorem DCtx.zpos (h : DCtx M u env zs Tis d t Nis) : ∀ z ∈ zs, 0 < z := by
  obtain ⟨I, hI⟩ := List.exists_mem_of_ne_nil _ h.ne
  intro z hz'
  rw [← h.hz I hI] at hz'
  obtain ⟨q, hq, rfl⟩ := List.mem_map.1 hz'
  exact h.D.pos I hI q hq

omit [DecidableEq K] in
theorem DCtx.zpos' (h : DCtx M u env zs Tis d t Nis) {n : Nat} (hn : n < zs.length) : 0 < zs.getD n 0 := by
  rw [getD_lt hn]
  exact h.zpos _ (List.getElem_mem _)

theorem take_add_le {zs : List Nat} {n : Nat} (hn : n < zs.length) : (zs.take n).sum + zs.getD n 0 ≤ zs.sum := by
  have := take_sum_mono (zs := zs) (n := n) (n' := zs.length) hn hn
  rwa [List.take_length] at this

omit [DecidableEq K] in
theorem DCtx.at' (h : DCtx M u env zs Tis d t Nis) {n : Nat} (hn : n < zs.length) {J : Nat} (hJ : J < zs.getD n 0) :
    d.at' ((zs.take n).sum + J) = (dB env zs d n).at' J := by
  have hle := take_add_le hn
  unfold DG.at' dB
  rcases h.store with hs | hs
  · simp [hs]
  · have hl := h.len
    have h1 : d.store.isEmpty = false := by
      rw [List.isEmpty_eq_false_iff, ← List.length_pos_iff]; omega
    have h2 : ((d.store.drop (zs.take n).sum).take (zs.getD n 0)).isEmpty = false := by
      rw [List.isEmpty_eq_false_iff, ← List.length_pos_iff, List.length_take, List.length_drop]; omega
    simp only [h1, h2, Bool.false_eq_true, if_false]
    rw [List.getD_eq_getElem?_getD, List.getD_eq_getElem?_getD, List.getElem?_take_of_lt hJ, List.getElem?_drop]

omit [DecidableEq K] in
theorem DCtx.dB_ok (h : DCtx M u env zs Tis d t Nis) {n : Nat} (hn : n < zs.length) {β : Key → Nat} (hβ : ∀ k ∈ keys d.is, β k = n) :
    (dB env zs d n).OK fun k => (szK env k).getD (β k) 0 := by
  have hz := h.zpos' hn
  have hk : ∀ I ∈ d.is, I.key ∈ keys d.is := fun I hI => List.mem_map_of_mem hI
  refine ⟨⟨?_, ?_, ?_, ?_⟩, ?_, ?_, ?_⟩
  · rw [keys_dB]; exact h.D.nodup
  · intro i hi
    obtain ⟨I, hI, rfl⟩ := List.mem_map.1 hi
    change (szK env I.key).getD n 0 = (szK env I.key).getD (β I.key) 0
    rw [hβ _ (hk I hI)]
  · intro i hi
    obtain ⟨I, hI, rfl⟩ := List.mem_map.1 hi
    change 0 < (szK env I.key).getD n 0
    rw [h.szD (hk I hI)]; exact hz
  · intro i hi
    obtain ⟨I, hI, rfl⟩ := List.mem_map.1 hi
    rfl
  · intro i hi
    obtain ⟨I, hI, rfl⟩ := List.mem_map.1 hi
    change zs.getD n 0 ≤ (szK env I.key).getD n 0
    rw [h.szD (hk I hI)]
  · right
    obtain ⟨I, hI⟩ := List.exists_mem_of_ne_nil _ h.ne
    refine ⟨_, List.mem_map.2 ⟨I, hI, rfl⟩, ?_⟩
    change (szK env I.key).getD n 0 = zs.getD n 0
    rw [h.szD (hk I hI)]
  · rcases h.store with hs | hs
    · left; simp [dB, hs]
    · right
      have := take_add_le hn
      have := h.len
      simp only [dB, List.length_take, List.length_drop]
      omega

omit [DecidableEq K] in
theorem DCtx.tB_ok (h : DCtx M u env zs Tis d t Nis) {ao : BlOf} (hao : ao ∈ t.offsets) {β : Key → Nat} (hβ : ao.block = blk Tis β) :
    (tB env Tis t ao β).OK fun k => (szK env k).getD (β k) 0 := by
  have hv := h.wf.valid ao hao
  rw [hβ, valid_blk h.T.sz] at hv
  refine ⟨⟨?_, ?_, ?_, ?_⟩, ?_⟩
  · rw [keys_tB]; exact h.T.nodup
  · intro i hi
    obtain ⟨I, hI, rfl⟩ := List.mem_map.1 hi
    rfl
  · intro i hi
    obtain ⟨I, hI, rfl⟩ := List.mem_map.1 hi
    change 0 < (szK env I.key).getD (β I.key) 0
    have hlt := hv I hI
    rw [getD_lt hlt]
    obtain ⟨q, hq, e⟩ := List.mem_map.1 (List.getElem_mem hlt)
    rw [← e]
    rw [← h.T.env I hI] at hq
    exact h.T.pos I hI q hq
  · intro i hi
    obtain ⟨I, hI, rfl⟩ := List.mem_map.1 hi
    rfl
  · change bdim Tis ao.block = ((bI (szK env) Tis β).map (·.dim)).prod
    rw [dims_bI h.T.sz, ← hβ]
    rfl

omit [DecidableEq K] in
theorem DCtx.pv_eq (h : DCtx M u env zs Tis d t Nis) {ao : BlOf} {n : Nat} (hn : n < zs.length) {β : Key → Nat}
    (hβ : ao.block = blk Tis β) (υ : Key → Nat) : prodVal' (dB env zs d n) (tB env Tis t ao β).sem υ = pv zs Tis d t ao n υ := by
  unfold prodVal' pv
  refine sum_congr rfl fun i hi => ?_
  have hi' : i < zs.getD n 0 := mem_range.1 hi
  rw [h.at' hn hi']
  have hk1 : keys (dB env zs d n).is = keys d.is := keys_dB n
  have hk2 : (tB env Tis t ao β).sem.inds = keys Tis := keys_bI _ _ _
  simp only [hk1, hk2]
  refine if_congr Iff.rfl ?_ rfl
  congr 1
  have hr : (tB env Tis t ao β).sem.val (fun k => if k ∈ keys d.is then i else υ k) =
      t.data (ao.offset + ((rank ((bI (szK env) Tis β).map (·.dim)) ((bI (szK env) Tis β).map fun I => if I.key ∈ keys d.is then i else υ I.key) : Nat) : Int)) := rfl
  rw [hr, dims_bI h.T.sz, ← hβ, Nat.cast_add]
  congr 4
  unfold bI blk
  rw [List.map_map]
  rfl

/-- Labels and the origin of the blocks of the result, as `blockDiagDense` uses them. -/
structure LCtx (Tis Nis : IndexSet) (d : DG K) (lab : Key → Int) (src : List (Nat ⊕ Nat)) : Prop where
  lab : LabOK lab d.is Tis
  src : ∀ β, cBlock src (blk Tis β) (blk d.is β) = blk Nis β

omit [DecidableEq K] in
theorem blk_rep {n : Nat} {β : Key → Nat} (hβ : ∀ k ∈ keys d.is, β k = n) : blk d.is β = List.replicate d.is.length n := by
  rw [List.eq_replicate_iff]
  refine ⟨by simp [blk], fun x hx => ?_⟩
  obtain ⟨I, hI, rfl⟩ := List.mem_map.1 hx
  exact hβ _ (List.mem_map_of_mem hI)

/-- One pair of blocks with diagonal elements. -/
theorem dStep_on (h : DCtx M u env zs Tis d t Nis) {lab : Key → Int} {src : List (Nat ⊕ Nat)} (hl : LCtx Tis Nis d lab src)
    (hU : Tis.filter (fun i => decide (i.key ∉ keys d.is)) ≠ []) {fuel : Nat} (hf : t.size < fuel)
    {Coff : List BlOf} {Csize : Nat} (hC : WF Nis Coff Csize) {ao : BlOf} (hao : ao ∈ t.offsets) {n : Nat} (hn : n < zs.length) {β : Key → Nat}
    (hβ : ao.block = blk Tis β) (hβD : ∀ k ∈ keys d.is, β k = n) {co : BlOf} (hco : co ∈ Coff) (hcb : co.block = blk Nis β) (m : Int → K) :
    ∃ m', dStep fuel Tis Nis ((keys d.is).map lab) ((keys Tis).map lab) ((keys Nis).map lab) src d t Coff Csize ao m (List.replicate d.is.length n) = some (.ok m') ∧
      ∀ o ∈ Coff, ∀ υ, Valid (bext Nis o.block) (blk Nis υ) →
        m' ((o.offset + rank (bext Nis o.block) (blk Nis υ) : Nat) : Int) =
          m ((o.offset + rank (bext Nis o.block) (blk Nis υ) : Nat) : Int) + if o.block = blk Nis β then pv zs Tis d t ao n υ else 0 := by
  have hz := h.zpos' hn
  have hle := take_add_le hn
  have hv := h.wf.valid ao hao
  have hvc := hC.valid co hco
  have hbd := (h.wf.tile.bounds ao hao).2
  have hbc := (hC.tile.bounds co hco).2
  have hrep := blk_rep hβD
  have hcB : cBlock src ao.block (List.replicate d.is.length n) = co.block := by rw [hβ, ← hrep, hl.src, hcb]
  have dN : (bI (szK env) Nis β).map (·.dim) = bext Nis co.block := by rw [dims_bI h.szN, hcb]
  have dT : (bI (szK env) Tis β).map (·.dim) = bext Tis ao.block := by rw [dims_bI h.T.sz, hβ]
  have hbIc : bI (szK env) d.is β = bI (szK env) d.is fun _ => n := by
    unfold bI
    refine List.map_congr_left fun I hI => ?_
    rw [hβD _ (List.mem_map_of_mem hI)]
  obtain ⟨r, r1, r2⟩ := Verif.Net.partial_ok (h.dB_ok hn hβD) (h.tB_ok hao hβ) (lab := lab)
    (by
      refine ⟨?_, ?_⟩
      · have := hl.lab.inj
        simpa only [keys_dB, keys_tB] using this
      · have := hl.lab.sign
        simpa only [keys_dB, keys_tB] using this)
    (Nis := bI (szK env) Nis β)
    (by
      have hp := h.hN.map fun I : Index => ({ I with dim := (szK env I.key).getD (β I.key) 0, qns := [] } : Index)
      rw [List.map_append] at hp
      change (bI (szK env) Nis β).Perm ((bI (szK env) Tis β).filter (fun i => decide (i.key ∉ keys (bI (szK env) d.is fun _ => n))) ++
        (bI (szK env) d.is fun _ => n).filter (fun i => decide (i.key ∉ keys (bI (szK env) Tis β))))
      rw [keys_bI, keys_bI, ← hbIc]
      have hfm : ∀ (is : IndexSet) (L : List Key), (bI (szK env) is β).filter (fun i => decide (i.key ∉ L)) =
          (is.filter fun i => decide (i.key ∉ L)).map fun I : Index => ({ I with dim := (szK env I.key).getD (β I.key) 0, qns := [] } : Index) := by
        intro is L
        unfold bI
        rw [List.filter_map]
        rfl
      rw [hfm, hfm]
      exact hp)
    (by
      change (bI (szK env) Tis β).filter (fun i => decide (i.key ∉ keys (bI (szK env) d.is fun _ => n))) ≠ []
      rw [keys_bI]
      unfold bI
      rw [List.filter_map]
      intro e
      exact hU (List.map_eq_nil_iff.1 e))
    fuel (by
      change ((bI (szK env) Tis β).map (·.dim)).prod < fuel
      rw [dT]
      change bdim Tis ao.block < fuel
      unfold bdim at hbd ⊢
      omega)
  have hk1 : keys (dB env zs d n).is = keys d.is := keys_dB n
  have hk2 : keys (tB env Tis t ao β).is = keys Tis := keys_bI _ _ _
  have hk3 : keys (bI (szK env) Nis β) = keys Nis := keys_bI _ _ _
  rw [hk1, hk2, hk3, (h.dB_ok hn hβD).size, dN, show (tB env Tis t ao β).is.map (·.dim) = bext Tis ao.block from dT] at r1
  obtain ⟨p1, p2⟩ := partialS_of r1 (starts := List.replicate d.is.length 0) (by simp) (nB' := t.size - ao.offset) (nC' := Csize - co.offset)
    (by change bdim Tis ao.block ≤ _; unfold bdim at hbd ⊢; omega) (by unfold bdim at hbc; omega) (A' := fun J => d.at' ((zs.take n).sum + J))
    (fun J hJ => h.at' hn hJ) (fun x => m (co.offset + x))
  refine ⟨fun x => m x + r (x - co.offset), ?_, fun o ho υ hυ => ?_⟩
  · unfold dStep
    rw [bounds_on h.ne h.hz hn]
    simp only [Run.lift, Run.bind_ok]
    rw [if_neg (by omega), if_neg (by
      rintro ⟨e1, e2⟩
      rcases h.store with hs | hs
      · simp [hs] at e1
      · have := h.len; omega), hcB, getBlock_mem (d := (⟨Coff, Csize, m⟩ : QDense K)) hC hco, blockExtents_ok hv, blockExtents_ok hvc]
    simp only [Run.bind_ok]
    rw [Nat.add_sub_cancel_left]
    rw [show (dB env zs d n).length = zs.getD n 0 from rfl] at p1
    have p1' : contractDiagPartialS fuel (zs.getD n 0) (fun J => d.at' ((zs.take n).sum + J)) ((keys d.is).map lab) (List.replicate d.is.length 0)
        (init (bext Tis ao.block)) (t.size - ao.offset) (fun x => t.data (ao.offset + x)) ((keys Tis).map lab) (init (bext Nis co.block)) (Csize - co.offset)
        (fun x => m (co.offset + x)) ((keys Nis).map lab) = _ := p1
    rw [p1', Run.bind_ok]
    congr 3
    funext x
    dsimp only
    rw [add_sub_cancel]
  · have hr := rank_lt hυ
    dsimp only
    by_cases hoc : o = co
    · subst hoc
      rw [if_pos hcb]
      congr 1
      have hcast : ((o.offset + rank (bext Nis o.block) (blk Nis υ) : Nat) : Int) - (o.offset : Int) = ((rank (bext Nis o.block) (blk Nis υ) : Nat) : Int) := by
        push_cast; omega
      rw [hcast]
      have := r2 υ (by
        intro i hi
        obtain ⟨I, hI, rfl⟩ := List.mem_map.1 hi
        change υ I.key < (szK env I.key).getD (β I.key) 0
        rw [hcb] at hυ
        exact (valid_bext_blk h.szN β υ).1 hυ I hI)
      rw [dN] at this
      rw [← h.pv_eq hn hβ, ← this]
      congr 3
      unfold bI blk
      rw [List.map_map]
      rfl
    · have hdj := hC.disjoint ho hco hoc
      unfold bdim at hdj hbc
      rw [if_neg (fun e => hoc (hC.block_inj ho hco (e.trans hcb.symm))), add_zero, p2, add_zero]
      rintro ⟨g1, g2⟩
      omega


omit [DecidableEq K] in
theorem runFold_add {α ι : Type*} {f : (Int → K) → α → Run (Int → K)} {addr : ι → Int} {Q : ι → Prop} {v : α → ι → K} :
    ∀ (L : List α), (∀ a ∈ L, ∀ m, ∃ m', f m a = some (.ok m') ∧ ∀ i, Q i → m' (addr i) = m (addr i) + v a i) →
    ∀ m, ∃ m', runFold f m L = some (.ok m') ∧ ∀ i, Q i → m' (addr i) = m (addr i) + (L.map fun a => v a i).sum
  | [], _, m => ⟨m, rfl, by simp⟩
  | a :: L, h, m => by
    obtain ⟨m1, e1, e2⟩ := h a (by simp) m
    obtain ⟨m2, e3, e4⟩ := runFold_add L (fun b hb => h b (by simp [hb])) m1
    refine ⟨m2, by unfold runFold; rw [e1, Run.bind_ok, e3], fun i hi => ?_⟩
    rw [e4 i hi, e2 i hi, List.map_cons, List.sum_cons, add_assoc]

/-- The block `c` of the result is the one the pair of the block at `ao` and the diagonal block `n` contributes to. -/
def Mt (Tis Nis : IndexSet) (d : DG K) (ao : BlOf) (n : Nat) (c : Block) : Prop :=
  ∃ β : Key → Nat, ao.block = blk Tis β ∧ (∀ k ∈ keys d.is, β k = n) ∧ c = blk Nis β

omit [DecidableEq K] in
theorem DCtx.nblock (h : DCtx M u env zs Tis d t Nis) {J : Index} (hJ : J ∈ d.is) : J.nblock = zs.length := by
  rw [← szs_length, h.hz J hJ]

omit [DecidableEq K] in
theorem DCtx.keyN (h : DCtx M u env zs Tis d t Nis) {I : Index} (hI : I ∈ Nis) : I.key ∈ keys Tis ∨ I.key ∈ keys d.is := by
  rcases List.mem_append.1 (h.hN.mem_iff.1 hI) with hI | hI
  · exact Or.inl (List.mem_map_of_mem (List.mem_filter.1 hI).1)
  · exact Or.inr (List.mem_map_of_mem (List.mem_filter.1 hI).1)

open Classical in
/-- All the diagonal blocks paired with the block at `ao`, for a step `f` that adds the contribution of a pair of blocks. -/
theorem tStep_gen (h : DCtx M u env zs Tis d t Nis) {fuel : Nat} (hfD : (nb d.is).prod < fuel) {ι : Type*} {addr : ι → Int} {Q : ι → Prop}
    {cb : ι → Block} {uv : ι → Key → Nat} {f : BlOf → (Int → K) → Block → Run (Int → K)} {ao : BlOf} (hao : ao ∈ t.offsets)
    (hon : ∀ n < zs.length, ∀ β : Key → Nat, ao.block = blk Tis β → (∀ k ∈ keys d.is, β k = n) → ∀ m, ∃ m', f ao m (List.replicate d.is.length n) = some (.ok m') ∧
      ∀ p, Q p → m' (addr p) = m (addr p) + if cb p = blk Nis β then pv zs Tis d t ao n (uv p) else 0)
    (hoff : ∀ b x y ss, diagBlockBounds d.is b = .ok (x, y, ss) → x ≥ y → ∀ m, f ao m b = some (.ok m)) (m : Int → K) :
    ∃ m', tStep fuel Tis d.is f m ao = some (.ok m') ∧ ∀ p, Q p →
        m' (addr p) = m (addr p) + ∑ n ∈ range zs.length, if Mt Tis Nis d ao n (cb p) then pv zs Tis d t ao n (uv p) else 0 := by
  have hlen : 0 < d.is.length := List.length_pos_iff.2 h.ne
  have repinj : ∀ n n' : Nat, List.replicate d.is.length n = List.replicate d.is.length n' → n = n' := by
    intro n n' e
    rcases List.replicate_inj.1 e with ⟨_, e | e⟩
    · omega
    · exact e
  have hv := h.wf.valid ao hao
  obtain ⟨β0, hβ0⟩ := exists_blk h.T.nodup (b := ao.block) (by rw [hv.length_eq]; simp [nb])
  obtain ⟨gs, g1, g2, g3⟩ := couB_ok (Tis := Tis) h.ne h.D.nodup h.D.ne β0 (by
    intro J hJ hk
    obtain ⟨I, hI, e⟩ := List.mem_map.1 hk
    rw [hβ0, valid_blk h.T.sz] at hv
    have := hv I hI
    rw [← szs_length, h.D.sz J hJ, ← e]
    exact this) fuel hfD
  rw [← hβ0] at g1
  obtain ⟨m', e1, e2⟩ := runFold_add (f := f ao) (addr := addr) (Q := Q)
    (v := fun b p => ∑ n ∈ range zs.length, if b = List.replicate d.is.length n then (if Mt Tis Nis d ao n (cb p) then pv zs Tis d t ao n (uv p) else 0) else 0)
    (gs.map fun g => g.i.map Int.toNat) (by
      intro b hb m
      obtain ⟨γ, rfl, hγ⟩ := (g3 b).1 hb
      by_cases hc : ∃ n, blk d.is γ = List.replicate d.is.length n
      · obtain ⟨n, hn⟩ := hc
        have hγn : ∀ k ∈ keys d.is, γ k = n := by
          intro k hk
          obtain ⟨I, hI, rfl⟩ := List.mem_map.1 hk
          exact (List.eq_replicate_iff.1 hn).2 _ (List.mem_map.2 ⟨I, hI, rfl⟩)
        obtain ⟨J, hJ⟩ := List.exists_mem_of_ne_nil _ h.ne
        have hnl : n < zs.length := by
          rw [← h.nblock hJ, ← hγn J.key (List.mem_map_of_mem hJ)]
          exact (hγ J hJ).1
        have hβ : ao.block = blk Tis fun k => if k ∈ keys d.is then n else β0 k := by
          rw [hβ0]
          refine blk_congr fun I hI => ?_
          by_cases hk : I.key ∈ keys d.is
          · obtain ⟨J, hJ, e⟩ := List.mem_map.1 hk
            rw [if_pos hk, ← e, ← (hγ J hJ).2 (by rw [e]; exact List.mem_map_of_mem hI), hγn _ (List.mem_map_of_mem hJ)]
          · rw [if_neg hk]
        have hβD : ∀ k ∈ keys d.is, (if k ∈ keys d.is then n else β0 k) = n := fun k hk => if_pos hk
        obtain ⟨m', d1, d2⟩ := hon n hnl _ hβ hβD m
        refine ⟨m', by rw [hn]; exact d1, fun p hp => ?_⟩
        rw [d2 p hp]
        congr 1
        rw [sum_eq_single_of_mem n (mem_range.2 hnl) (fun n' _ hne => if_neg fun e => hne (repinj _ _ (hn.symm.trans e)).symm), if_pos hn]
        refine if_congr ⟨fun e => ⟨_, hβ, hβD, e⟩, ?_⟩ rfl rfl
        rintro ⟨β', b1, b2, b3⟩
        rw [b3]
        refine blk_congr fun I hI => ?_
        by_cases hk : I.key ∈ keys d.is
        · rw [b2 _ hk, if_pos hk]
        · have := blk_inj (b1.symm.trans hβ) I.key ((h.keyN hI).resolve_right hk)
          exact this
      · obtain ⟨a, e, ss, b1, b2⟩ := bounds_off h.ne h.hz (b := blk d.is γ) (by
          rw [valid_blk h.D.sz]
          intro I hI
          rw [← h.D.sz I hI, szs_length]
          exact (hγ I hI).1) hc
        refine ⟨m, ?_, fun p hp => ?_⟩
        · exact hoff _ _ _ _ b1 b2 m
        · rw [sum_eq_zero fun n _ => if_neg fun e => hc ⟨n, e⟩, add_zero]) m
  refine ⟨m', by unfold tStep; rw [g1, Run.bind_ok, e1], fun p hp => ?_⟩
  rw [e2 p hp]
  congr 1
  rw [← List.sum_toFinset _ g2, sum_comm]
  refine sum_congr rfl fun n hn => ?_
  by_cases hM : Mt Tis Nis d ao n (cb p)
  · rw [if_pos hM]
    have hin : List.replicate d.is.length n ∈ (gs.map fun g => g.i.map Int.toNat).toFinset := by
      rw [List.mem_toFinset, g3]
      obtain ⟨β, b1, b2, b3⟩ := hM
      refine ⟨β, (blk_rep b2).symm, fun J hJ => ⟨?_, fun hk => ?_⟩⟩
      · rw [b2 _ (List.mem_map_of_mem hJ), h.nblock hJ]; exact mem_range.1 hn
      · exact (blk_inj (hβ0.symm.trans b1) _ hk).symm
    rw [sum_eq_single_of_mem _ hin (fun b _ hb => if_neg hb), if_pos rfl]
  · simp only [if_neg hM, ite_self, Finset.sum_const_zero]

open Classical in
/-- All the diagonal blocks paired with the block at `ao`. -/
theorem tStep_ok (h : DCtx M u env zs Tis d t Nis) {lab : Key → Int} {src : List (Nat ⊕ Nat)} (hl : LCtx Tis Nis d lab src)
    (hU : Tis.filter (fun i => decide (i.key ∉ keys d.is)) ≠ []) {fuel : Nat} (hf : t.size < fuel) (hfD : (nb d.is).prod < fuel)
    {Coff : List BlOf} {Csize : Nat} (hC : WF Nis Coff Csize)
    (hmem : ∀ ao ∈ t.offsets, ∀ n < zs.length, ∀ c, Mt Tis Nis d ao n c → ∃ co ∈ Coff, co.block = c) {ao : BlOf} (hao : ao ∈ t.offsets) (m : Int → K) :
    ∃ m', tStep fuel Tis d.is (dStep fuel Tis Nis ((keys d.is).map lab) ((keys Tis).map lab) ((keys Nis).map lab) src d t Coff Csize) m ao = some (.ok m') ∧
      ∀ p : BlOf × (Key → Nat), p.1 ∈ Coff ∧ Valid (bext Nis p.1.block) (blk Nis p.2) →
        m' ((p.1.offset + rank (bext Nis p.1.block) (blk Nis p.2) : Nat) : Int) =
          m ((p.1.offset + rank (bext Nis p.1.block) (blk Nis p.2) : Nat) : Int) +
            ∑ n ∈ range zs.length, if Mt Tis Nis d ao n p.1.block then pv zs Tis d t ao n p.2 else 0 := by
  refine tStep_gen h hfD (addr := fun p : BlOf × (Key → Nat) => ((p.1.offset + rank (bext Nis p.1.block) (blk Nis p.2) : Nat) : Int))
    (Q := fun p => p.1 ∈ Coff ∧ Valid (bext Nis p.1.block) (blk Nis p.2)) (cb := fun p => p.1.block) (uv := fun p => p.2) hao (fun n hnl β hβ hβD m => ?_)
    (fun b x y ss b1 b2 m => ?_) m
  · obtain ⟨co, hco, hcb⟩ := hmem ao hao n hnl _ ⟨_, hβ, hβD, rfl⟩
    obtain ⟨m', d1, d2⟩ := dStep_on h hl hU hf hC hao hnl hβ hβD hco hcb m
    exact ⟨m', d1, fun p hp => by rw [d2 p.1 hp.1 p.2 hp.2]⟩
  · unfold dStep
    rw [b1]
    simp only [Run.lift, Run.bind_ok]
    rw [if_pos b2]

open Classical in
/-- All pairs of blocks. -/
theorem blocks_ok (h : DCtx M u env zs Tis d t Nis) {lab : Key → Int} {src : List (Nat ⊕ Nat)} (hl : LCtx Tis Nis d lab src)
    (hU : Tis.filter (fun i => decide (i.key ∉ keys d.is)) ≠ []) {fuel : Nat} (hf : t.size < fuel) (hfD : (nb d.is).prod < fuel)
    {Coff : List BlOf} {Csize : Nat} (hC : WF Nis Coff Csize)
    (hmem : ∀ ao ∈ t.offsets, ∀ n < zs.length, ∀ c, Mt Tis Nis d ao n c → ∃ co ∈ Coff, co.block = c) (m : Int → K) :
    ∃ m', runFold (tStep fuel Tis d.is (dStep fuel Tis Nis ((keys d.is).map lab) ((keys Tis).map lab) ((keys Nis).map lab) src d t Coff Csize)) m t.offsets =
        some (.ok m') ∧
      ∀ p : BlOf × (Key → Nat), p.1 ∈ Coff ∧ Valid (bext Nis p.1.block) (blk Nis p.2) →
        m' ((p.1.offset + rank (bext Nis p.1.block) (blk Nis p.2) : Nat) : Int) =
          m ((p.1.offset + rank (bext Nis p.1.block) (blk Nis p.2) : Nat) : Int) +
            (t.offsets.map fun ao => ∑ n ∈ range zs.length, if Mt Tis Nis d ao n p.1.block then pv zs Tis d t ao n p.2 else 0).sum :=
  runFold_add t.offsets (fun _ hao m => tStep_ok h hl hU hf hfD hC hmem hao m) m

/-- The element of the product at the element `υ` of the block `β0`, as a sum over the diagonal blocks. -/
def blockSum (zs : List Nat) (Tis : IndexSet) (d : DG K) (t : QDense K) (β0 υ : Key → Nat) : K :=
  ∑ n ∈ range zs.length, ∑ i ∈ range (zs.getD n 0),
    if ∀ k ∈ keys d.is, k ∉ keys Tis → β0 k = n ∧ υ k = i then
      d.at' ((zs.take n).sum + i) * elem t Tis (blk Tis fun k => if k ∈ keys d.is then n else β0 k) (blk Tis fun k => if k ∈ keys d.is then i else υ k) else 0

omit [DecidableEq K] in
theorem Mt_iff (h : DCtx M u env zs Tis d t Nis) {ao : BlOf} {n : Nat} {β0 : Key → Nat} :
    Mt Tis Nis d ao n (blk Nis β0) ↔ (ao.block = blk Tis fun k => if k ∈ keys d.is then n else β0 k) ∧ ∀ k ∈ keys d.is, k ∉ keys Tis → β0 k = n := by
  have hN : ∀ k, k ∈ keys Nis ↔ (k ∈ keys Tis ∧ k ∉ keys d.is) ∨ (k ∈ keys d.is ∧ k ∉ keys Tis) := by
    intro k
    have : k ∈ keys Nis ↔ k ∈ keys (Tis.filter (fun i => decide (i.key ∉ keys d.is)) ++ d.is.filter (fun i => decide (i.key ∉ keys Tis))) :=
      (h.hN.map _).mem_iff
    rw [this]
    simp only [keys, List.map_append, List.mem_append, List.mem_map, List.mem_filter, decide_eq_true_eq]
    constructor
    · rintro (⟨I, ⟨h1, h2⟩, rfl⟩ | ⟨I, ⟨h1, h2⟩, rfl⟩)
      · exact Or.inl ⟨⟨I, h1, rfl⟩, h2⟩
      · exact Or.inr ⟨⟨I, h1, rfl⟩, h2⟩
    · rintro (⟨⟨I, h1, rfl⟩, h2⟩ | ⟨⟨I, h1, rfl⟩, h2⟩)
      · exact Or.inl ⟨I, ⟨h1, h2⟩, rfl⟩
      · exact Or.inr ⟨I, ⟨h1, h2⟩, rfl⟩
  constructor
  · rintro ⟨β, b1, b2, b3⟩
    have hi := blk_inj b3
    refine ⟨?_, fun k hk hkT => ?_⟩
    · rw [b1]
      refine blk_congr fun I hI => ?_
      by_cases hk : I.key ∈ keys d.is
      · rw [if_pos hk, b2 _ hk]
      · rw [if_neg hk, hi _ ((hN _).2 (Or.inl ⟨List.mem_map_of_mem hI, hk⟩))]
    · rw [hi _ ((hN _).2 (Or.inr ⟨hk, hkT⟩)), b2 _ hk]
  · rintro ⟨b1, b2⟩
    refine ⟨_, b1, fun k hk => if_pos hk, blk_congr fun I hI => ?_⟩
    by_cases hk : I.key ∈ keys d.is
    · rw [if_pos hk]
      rcases (hN _).1 (List.mem_map_of_mem hI) with ⟨_, h2⟩ | ⟨_, h2⟩
      · exact absurd hk h2
      · exact b2 _ hk h2
    · rw [if_neg hk]

omit [DecidableEq K] in
theorem sum_offsets {is : IndexSet} {offs : List BlOf} {size : Nat} (h : WF is offs size) (g : BlOf → K) {b : Block} {o : BlOf} (ho : o ∈ offs) (hb : o.block = b) :
    (offs.map fun a => if a.block = b then g a else 0).sum = g o := by
  classical
  have hnd : offs.Nodup := by
    refine h.sorted.imp fun {a b} hab e => ?_
    rw [e, blockLt_irrefl] at hab
    exact absurd hab (by decide)
  rw [← List.sum_toFinset _ hnd, sum_eq_single_of_mem o (List.mem_toFinset.2 ho) (fun a ha hne => if_neg fun e => hne (h.block_inj (List.mem_toFinset.1 ha) ho (e.trans hb.symm))), if_pos hb]

open Classical in
omit [DecidableEq K] in
theorem blockSum_eq (h : DCtx M u env zs Tis d t Nis) (β0 υ : Key → Nat) (hβ0 : ∀ I ∈ Tis, I.key ∉ keys d.is → β0 I.key < (szK env I.key).length) :
    (t.offsets.map fun ao => ∑ n ∈ range zs.length, if Mt Tis Nis d ao n (blk Nis β0) then pv zs Tis d t ao n υ else 0).sum = blockSum zs Tis d t β0 υ := by
  have hswap : ∀ (L : List BlOf) (g : BlOf → Nat → K), (L.map fun ao => ∑ n ∈ range zs.length, g ao n).sum = ∑ n ∈ range zs.length, (L.map fun ao => g ao n).sum := by
    intro L g
    induction L with
    | nil => simp
    | cons a L ih => simp only [List.map_cons, List.sum_cons, ih, sum_add_distrib]
  rw [hswap]
  unfold blockSum
  refine sum_congr rfl fun n hn => ?_
  simp only [Mt_iff h]
  by_cases hc : ∀ k ∈ keys d.is, k ∉ keys Tis → β0 k = n
  · have e1 : ∀ i, (∀ k ∈ keys d.is, k ∉ keys Tis → β0 k = n ∧ υ k = i) ↔ ∀ k ∈ keys d.is, k ∉ keys Tis → υ k = i :=
      fun i => ⟨fun H k hk hk' => (H k hk hk').2, fun H k hk hk' => ⟨hc k hk hk', H k hk hk'⟩⟩
    simp only [and_iff_left hc, e1]
    set b := blk Tis fun k => if k ∈ keys d.is then n else β0 k with hb
    by_cases hex : ∃ o ∈ t.offsets, o.block = b
    · obtain ⟨o, ho, hob⟩ := hex
      rw [sum_offsets h.wf _ ho hob]
      unfold pv
      refine sum_congr rfl fun i _ => if_congr Iff.rfl ?_ rfl
      unfold elem
      rw [← hob, getBlock_mem h.wf ho]
    · have hnone : ∀ i, elem t Tis b (blk Tis fun k => if k ∈ keys d.is then i else υ k) = 0 := by
        intro i
        unfold elem
        rw [getBlock_notMem h.wf (by
          rw [hb, valid_blk h.T.sz]
          intro I hI
          by_cases hk : I.key ∈ keys d.is
          · rw [if_pos hk, h.szD hk]; exact mem_range.1 hn
          · rw [if_neg hk]; exact hβ0 I hI hk) (fun o ho e => hex ⟨o, ho, e⟩)]
      simp only [hnone, mul_zero, ite_self, Finset.sum_const_zero]
      rw [List.sum_eq_zero]
      intro x hx
      obtain ⟨o, ho, rfl⟩ := List.mem_map.1 hx
      exact if_neg fun e => hex ⟨o, ho, e⟩
  · have e1 : ∀ i, ¬ ∀ k ∈ keys d.is, k ∉ keys Tis → β0 k = n ∧ υ k = i := fun i H => hc fun k hk hk' => (H k hk hk').1
    simp only [hc, and_false, if_false, e1, Finset.sum_const_zero]
    simp

end

end Verif.QDense
