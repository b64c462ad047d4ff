import Verif.QDense.AddProps

/-!
# Removing quantum numbers

Model of `removeQNs(ITensor)` (`/repo/itensor/itensor.cc:1000-1012`) with the task `RemoveQNs` of `QDense`
(`/repo/itensor/itdata/qdense.cc:921-949`). Property C59.

Simplifications. As in `QDense/Model.lean`. The `GCounter` is the same object for all blocks in the code; since `setRange` is called for
every index and overwrites all of its state, the model makes a new one for each block. The new
dense storage is a function on addresses that is zero where nothing was written; writing outside of it
or reading outside of the old storage is undefined.
-/

namespace Verif.QDense

open Verif.Index (Index IndexSet)
open Verif.Tensor
open Verif.Tensor.Range

section model
variable {K : Type*} [CommRing K]

/-- `start` (qdense.cc:935-939): the sum of `blocksize0(b)` for `b` below the block. -/
def sectorStart (I : Index) : Nat → Res Nat
  | 0 => .ok 0
  | b + 1 => (sectorStart I b).bind fun s => (blocksize0 I b).bind fun n => .ok (s + n)

/-- The loop that sets the ranges of the counter (qdense.cc:933-941), from index `j` on. -/
def rqSet : IndexSet → Block → Nat → GCounter → Res GCounter
  | [], _, _, C => .ok C
  | _ :: _, [], _, _ => .ub
  | I :: is, b :: bs, j, C =>
    (sectorStart I b).bind fun s => (blocksize0 I b).bind fun n => rqSet is bs (j + 1) (C.setRange j s (s + n - 1))

/-- The loop over the elements of a block (qdense.cc:944-947) for the given states of the counter. -/
def rqWrite (is : IndexSet) (d : QDense K) (io : BlOf) : List GCounter → (Int → K) → Res (Int → K)
  | [], m => .ok m
  | g :: gs, m =>
    (offset 0 (Range.init (is.map (·.dim))) (g.i.map Int.toNat)).bind fun o =>
    if 0 ≤ o ∧ o < (is.map (·.dim)).prod ∧ 0 ≤ io.offset + g.ind ∧ io.offset + g.ind < d.size then
      rqWrite is d io gs (Function.update m o (d.data (io.offset + g.ind)))
    else .ub

/-- Body of the loop over blocks. -/
def rqStep (fuel : Nat) (is : IndexSet) (d : QDense K) (m : Int → K) (io : BlOf) : Run (Int → K) :=
  match rqSet is io.block 0 ⟨List.replicate is.length 0, List.replicate is.length 0, List.replicate is.length 0, 0⟩ with
  | .ok C => Run.bind (GCounter.forEach fuel C) fun gs => some (rqWrite is d io gs m)
  | .throw => some .throw
  | .ub => some .ub

/-- `doTask(RemoveQNs,QDense)` (qdense.cc:921-949): the new dense storage. -/
def removeQNsTask (fuel : Nat) (is : IndexSet) (d : QDense K) : Run (Int → K) :=
  runFold (rqStep fuel is d) (fun _ => 0) d.offsets

/-- `removeQNs(ITensor)` (itensor.cc:1004-1012) of a tensor with `QDense` storage: the new indices and storage. -/
def removeQNsIT (fuel : Nat) (is : IndexSet) (d : QDense K) : Run (IndexSet × (Int → K)) :=
  Run.bind (removeQNsTask fuel is d) fun m => some (.ok (is.map Index.removeQNs, m))

/-- `doTask(GetElt,Dense)` (dense.cc) on such a storage. -/
def denseElt (is : IndexSet) (m : Int → K) (ind : List Nat) : Res K :=
  (offset 0 (Range.init (is.map (·.dim))) ind).bind fun o =>
  if 0 ≤ o ∧ o < (is.map (·.dim)).prod then .ok (m o) else .ub

end model

theorem sectorStart_ok {I : Index} {b : Nat} (h : b ≤ I.nblock) : sectorStart I b = .ok ((szs I).take b).sum := by
  induction b with
  | zero => rfl
  | succ b ih =>
    rw [sectorStart, ih (by omega), Res.bind_ok, blocksize0_ok (by omega), Res.bind_ok]
    have hb : b < (szs I).length := by rw [szs_length]; omega
    rw [List.take_add_one, List.getElem?_eq_getElem hb, List.sum_append]
    simp [bsize, List.getD_eq_getElem?_getD, List.getElem?_eq_getElem hb]

theorem rqSet_ok {is : IndexSet} {b : Block} (hb : Valid (nb is) b) (f0 l0 i0 f1 l1 i1 : List Int) (x : Int) (j : Nat)
    (h1 : f0.length = j) (h2 : l0.length = j) (h3 : i0.length = j)
    (h4 : f1.length = is.length) (h5 : l1.length = is.length) (h6 : i1.length = is.length) (hx : is = [] → x = 0) :
    rqSet is b j ⟨f0 ++ f1, l0 ++ l1, i0 ++ i1, x⟩ = .ok
      ⟨f0 ++ List.zipWith (fun I b => (((szs I).take b).sum : Int)) is b,
       l0 ++ List.zipWith (fun (f : Int) (d : Nat) => f + (d : Int) - 1) (List.zipWith (fun I b => (((szs I).take b).sum : Int)) is b) (bext is b),
       i0 ++ List.zipWith (fun I b => (((szs I).take b).sum : Int)) is b, 0⟩ := by
  induction is generalizing b f0 l0 i0 f1 l1 i1 x j with
  | nil =>
    simp only [List.length_nil, List.length_eq_zero_iff] at h4 h5 h6
    subst h4; subst h5; subst h6
    simp [rqSet, hx rfl]
  | cons I is ih =>
    cases b with
    | nil => exact absurd (valid_length hb) (by simp [nb])
    | cons b bs =>
      obtain ⟨hb1, hb2⟩ := List.forall₂_cons.1 hb
      cases f1 with
      | nil => simp at h4
      | cons f f1 =>
      cases l1 with
      | nil => simp at h5
      | cons l l1 =>
      cases i1 with
      | nil => simp at h6
      | cons i i1 =>
        have hb1' : b < I.nblock := hb1
        simp only [rqSet, sectorStart_ok (Nat.le_of_lt hb1'), Res.bind_ok, blocksize0_ok hb1', GCounter.setRange]
        have hset : ∀ (a c : List Int) (y z : Int), a.length = j → (a ++ y :: c).set j z = (a ++ [z]) ++ c := by
          intro a c y z ha
          subst ha
          simp
        rw [hset _ _ _ _ h1, hset _ _ _ _ h2, hset _ _ _ _ h3]
        rw [ih hb2 _ _ _ _ _ _ 0 (j + 1) (by simp [h1]) (by simp [h2]) (by simp [h3]) (by simpa using h4) (by simpa using h5)
          (by simpa using h6) (fun _ => rfl)]
        simp [bext]

theorem glue_eq_zip {is : IndexSet} {b : Block} {u : List Nat} (hb : Valid (nb is) b) (hu : Valid (bext is b) u) :
    (List.zipWith (fun (f : Int) (i : Nat) => f + (i : Int)) (List.zipWith (fun I b => (((szs I).take b).sum : Int)) is b) u).map Int.toNat =
      glue is b u := by
  induction is generalizing b u with
  | nil => simp [glue]
  | cons I is ih =>
    cases b with
    | nil => simp [glue]
    | cons b bs =>
      cases u with
      | nil => simp [glue]
      | cons u us =>
        obtain ⟨hb1, hb2⟩ := List.forall₂_cons.1 hb
        simp only [bext, List.zipWith_cons_cons] at hu
        obtain ⟨hu1, hu2⟩ := List.forall₂_cons.1 hu
        simp only [List.zipWith_cons_cons, List.map_cons, ih hb2 hu2, glue, gl]
        congr 1

section
variable {K : Type*} [CommRing K]

omit [CommRing K] in
/-- The loop over the elements of one block: any list of states in which `i` are values `glue is b u` and `ind` the matching
position. -/
theorem rqWrite_spec {is : IndexSet} (hdim : is.map (·.dim) = dims is) {d : QDense K} {b : Block} {doff : Nat} (hb : Valid (nb is) b)
    (hoff : doff + bdim is b ≤ d.size) (us : List (List Nat)) (hus : ∀ u ∈ us, Valid (bext is b) u) (gs : List GCounter)
    (h1 : gs.map (·.i) = us.map fun u => List.zipWith (fun (f : Int) (i : Nat) => f + (i : Int)) (List.zipWith (fun I b => (((szs I).take b).sum : Int)) is b) u)
    (h2 : gs.map (·.ind) = us.map fun u => ((rank (bext is b) u : Nat) : Int)) (m : Int → K) :
    ∃ m', rqWrite is d ⟨b, doff⟩ gs m = .ok m' ∧
      ∀ ind, Valid (dims is) ind →
        ((∀ u ∈ us, ind ≠ glue is b u) → m' (rank (dims is) ind : Nat) = m (rank (dims is) ind : Nat)) ∧
        (∀ u ∈ us, ind = glue is b u → m' (rank (dims is) ind : Nat) = d.data ((doff + rank (bext is b) u : Nat) : Int)) := by
  induction us generalizing gs m with
  | nil =>
    obtain rfl : gs = [] := by simpa using h1
    exact ⟨m, rfl, by simp⟩
  | cons u us ih =>
    cases gs with
    | nil => simp at h1
    | cons g gs =>
      simp only [List.map_cons, List.cons.injEq] at h1 h2
      have hu := hus u (by simp)
      have hg := glue_valid hb hu
      have hr := rank_lt hg
      have hr2 := rank_lt hu
      have ho : offset 0 (Range.init (is.map (·.dim))) (g.i.map Int.toNat) = .ok (rank (dims is) (glue is b u) : Nat) := by
        rw [h1.1, glue_eq_zip hb hu, hdim, offset_zero_eq _ _ (by
          rw [valid_length hg, ← congrArg List.length (extents_init (dims is))]; simp [Range.extents]), addr_init (valid_length hg)]
      unfold bdim at hoff
      obtain ⟨m', e1, e2⟩ := ih (fun u hu => hus u (by simp [hu])) gs h1.2 h2.2
        (Function.update m ((rank (dims is) (glue is b u) : Nat) : Int) (d.data (doff + g.ind)))
      refine ⟨m', ?_, ?_⟩
      · rw [rqWrite, ho, Res.bind_ok, if_pos ?_]
        · exact e1
        · dsimp only
          rw [h2.1, hdim]
          omega
      · intro ind hind
        obtain ⟨k1, k2⟩ := e2 ind hind
        have hne : ∀ u' , Valid (bext is b) u' → u' ≠ u → glue is b u' ≠ glue is b u := fun u' hu' hn e =>
          hn (glue_inj hb hu' hb hu e).2
        have hrne : ind ≠ glue is b u → ((rank (dims is) ind : Nat) : Int) ≠ ((rank (dims is) (glue is b u) : Nat) : Int) := by
          intro hn e
          have e' : rank (dims is) ind = rank (dims is) (glue is b u) := by exact_mod_cast e
          rw [← unrank_rank hind, e', unrank_rank hg] at hn
          exact hn rfl
        constructor
        · intro hall
          rw [k1 fun u' hu' => hall u' (by simp [hu']), Function.update_of_ne (hrne (hall u (by simp)))]
        · intro u' hu' he
          rcases List.mem_cons.1 hu' with rfl | hu'
          · by_cases hmem : u' ∈ us
            · exact k2 u' hmem he
            · rw [k1 ?_, he, Function.update_self, h2.1]
              · push_cast; rfl
              · intro w hw e
                have := (glue_inj hb hu hb (hus w (by simp [hw])) (he.symm.trans e)).2
                exact hmem (by rw [this]; exact hw)
          · exact k2 u' hu' he

theorem rqStep_spec {is : IndexSet} (hne : is ≠ []) (hdim : is.map (·.dim) = dims is) (hpos : PosSectors is) {d : QDense K}
    (hd : WF is d.offsets d.size) {fuel : Nat} (hf : d.size < fuel) {io : BlOf} (hio : io ∈ d.offsets) (m : Int → K) :
    ∃ m', rqStep fuel is d m io = some (.ok m') ∧
      ∀ b u, Valid (nb is) b → Valid (bext is b) u → m' (rank (dims is) (glue is b u) : Nat) =
        if b = io.block then elem d is b u else m (rank (dims is) (glue is b u) : Nat) := by
  have hb := hd.valid io hio
  have hbd := (hd.tile.bounds _ hio).2
  have hlen : io.block.length = is.length := by rw [valid_length hb]; simp [nb]
  obtain ⟨gs, g1, g2, g3⟩ := C15_gcounter (List.zipWith (fun I b => (((szs I).take b).sum : Int)) is io.block) (bext is io.block)
    (by simp [bext]) (by
      intro e
      have := bext_length hb
      rw [e] at this
      exact hne (List.length_eq_zero_iff.1 this.symm)) (bext_pos hpos hb) fuel (by unfold bdim at hbd; omega)
  have hset := rqSet_ok hb [] [] [] (List.replicate is.length 0) (List.replicate is.length 0) (List.replicate is.length 0) 0 0
    rfl rfl rfl (by simp) (by simp) (by simp) (fun _ => rfl)
  simp only [List.nil_append] at hset
  obtain ⟨m', e1, e2⟩ := rqWrite_spec hdim (d := d) (doff := io.offset) hb (by omega) (allInds (bext is io.block))
    (fun u hu => mem_allInds.1 hu) gs g2 (by
      rw [g3, allInds, List.map_map]
      refine List.map_congr_left fun k hk => ?_
      simp [rank_unrank (List.mem_range.1 hk)]) m
  refine ⟨m', ?_, ?_⟩
  · unfold rqStep
    rw [hset]
    simp only [g1, Run.bind]
    rw [← e1]
  · intro b u hbv hu
    obtain ⟨k1, k2⟩ := e2 _ (glue_valid hbv hu)
    split
    · next h =>
      subst h
      rw [k2 u (mem_allInds.2 hu) rfl]
      unfold elem
      rw [getBlock_mem hd hio]
    · next h =>
      exact k1 fun u' hu' e => h (glue_inj hbv hu hb (mem_allInds.1 hu') e).1

theorem removeQNsTask_ok {is : IndexSet} (hne : is ≠ []) (hdim : is.map (·.dim) = dims is) (hpos : PosSectors is) {d : QDense K}
    (hd : WF is d.offsets d.size) {fuel : Nat} (hf : d.size < fuel) :
    ∃ m, removeQNsTask fuel is d = some (.ok m) ∧ ∀ b u, Valid (nb is) b → Valid (bext is b) u →
      m (rank (dims is) (glue is b u) : Nat) = elem d is b u := by
  have key : ∀ (l : List BlOf) (m : Int → K), (∀ o ∈ l, o ∈ d.offsets) →
      ∃ m', runFold (rqStep fuel is d) m l = some (.ok m') ∧ ∀ b u, Valid (nb is) b → Valid (bext is b) u →
        m' (rank (dims is) (glue is b u) : Nat) = if b ∈ l.map (·.block) then elem d is b u else m (rank (dims is) (glue is b u) : Nat) := by
    intro l
    induction l with
    | nil => intro m _; exact ⟨m, rfl, by simp⟩
    | cons o l ih =>
      intro m hl
      obtain ⟨m1, e1, e2⟩ := rqStep_spec hne hdim hpos hd hf (hl o (by simp)) m
      obtain ⟨m2, f1, f2⟩ := ih m1 fun x hx => hl x (by simp [hx])
      refine ⟨m2, by simp only [runFold, e1]; exact f1, fun b u hb hu => ?_⟩
      rw [f2 b u hb hu, e2 b u hb hu]
      by_cases h1 : b ∈ l.map (·.block)
      · simp [h1]
      · rw [if_neg h1]
        by_cases h2 : b = o.block
        · rw [if_pos h2, if_pos (by rw [List.map_cons, h2]; simp)]
        · rw [if_neg h2, if_neg (by rw [List.map_cons, List.mem_cons]; rintro (h | h); exacts [h2 h, h1 h])]
  obtain ⟨m, e1, e2⟩ := key d.offsets (fun _ => 0) fun _ h => h
  refine ⟨m, e1, fun b u hb hu => ?_⟩
  rw [e2 b u hb hu]
  split
  · rfl
  · next h =>
    unfold elem
    rw [getBlock_notMem hd hb (by intro o ho e; exact h (by rw [← e]; exact List.mem_map_of_mem ho))]

/-- **C59.** `removeQNs` of any block-sparse tensor gives the same indices without quantum numbers, and a dense tensor with
the same element at every position. -/
theorem C59_removeQNs {is : IndexSet} (hne : is ≠ []) (hdim : ∀ I ∈ is, I.dim = (I.qns.map (·.2)).sum)
    (hpos : ∀ I ∈ is, ∀ p ∈ I.qns, 0 < p.2) {d : QDense K} (hd : WF is d.offsets d.size) {fuel : Nat} (hf : d.size < fuel) :
    ∃ nis m, removeQNsIT fuel is d = some (.ok (nis, m)) ∧
      nis.map (fun I => (I.id, I.dim, I.dir, I.tags)) = is.map (fun I => (I.id, I.dim, I.dir, I.tags)) ∧ (∀ I ∈ nis, I.qns = []) ∧
      ∀ ind, Valid (is.map fun I => I.dim) ind → ∃ x, getElt d is ind = .ok x ∧ denseElt nis m ind = .ok x := by
  have hdim' : is.map (·.dim) = dims is := List.map_congr_left fun I hI => hdim I hI
  have hpos' : PosSectors is := by
    intro I hI s hs
    obtain ⟨p, hp, rfl⟩ := List.mem_map.1 hs
    exact hpos I hI p hp
  obtain ⟨m, e1, e2⟩ := removeQNsTask_ok hne hdim' hpos' hd hf
  have hdn : (is.map Index.removeQNs).map (·.dim) = dims is := by rw [← hdim', List.map_map]; rfl
  refine ⟨is.map Index.removeQNs, m, by unfold removeQNsIT; rw [e1]; rfl, by rw [List.map_map]; rfl, ?_, ?_⟩
  · intro I hI
    obtain ⟨J, _, rfl⟩ := List.mem_map.1 hI
    rfl
  · intro ind hind
    rw [hdim'] at hind
    obtain ⟨b, u, hb, hu, rfl⟩ := exists_glue hind
    refine ⟨elem d is b u, getElt_glue hd hb hu, ?_⟩
    unfold denseElt
    have hg := glue_valid hb hu
    have hr := rank_lt hg
    rw [hdn, offset_zero_eq _ _ (by
          rw [valid_length hg, ← congrArg List.length (extents_init (dims is))]; simp [Range.extents]), addr_init (valid_length hg),
      Res.bind_ok, if_pos (by omega), e2 b u hb hu]

end

/-- The hypotheses hold of the example `exD`, and the element is found at its place. -/
example : ∃ nis m, removeQNsIT 100 [exI 1 1, exI 2 (-1)] exD = some (.ok (nis, m)) ∧ denseElt nis m [2, 2] = .ok 7 ∧
    denseElt nis m [0, 2] = .ok 0 := by
  obtain ⟨nis, m, h1, _, _, h4⟩ := C59_removeQNs (is := [exI 1 1, exI 2 (-1)]) (by simp) (by decide) (by decide) exD_wf (fuel := 100) (by decide)
  refine ⟨nis, m, h1, ?_, ?_⟩
  · obtain ⟨x, x1, x2⟩ := h4 [2, 2] (.cons (by decide) (.cons (by decide) .nil))
    have : getElt exD [exI 1 1, exI 2 (-1)] [2, 2] = .ok 7 := by decide +kernel
    rw [this] at x1
    rw [x2, Res.ok.inj x1]
  · obtain ⟨x, x1, x2⟩ := h4 [0, 2] (.cons (by decide) (.cons (by decide) .nil))
    have : getElt exD [exI 1 1, exI 2 (-1)] [0, 2] = .ok 0 := by decide +kernel
    rw [this] at x1
    rw [x2, Res.ok.inj x1]

end Verif.QDense
