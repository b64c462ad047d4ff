import Verif.Index.Model
import Verif.Tensor.Contract

/-!
# Block-sparse storage

Model of `/repo/itensor/itdata/qdense.h`, `qdense.cc` and `qutil.h` (the parts for `QDense`).

Simplifications. Elements are from a commutative ring (one type: the real/complex conversions are not
modelled). `long`/`size_t`/`int` values are natural numbers. The store (`vector_no_init`) is its size
together with a memory `Int → K`; reading or writing one element outside `0..size-1` is undefined.
-/

namespace Verif.QDense

open Verif.Index (Index IndexSet)
open Verif.Tensor

/-- `Block` (types.h:222): block numbers, 0-based, one for each index. -/
abbrev Block := List Nat

/-- `BlOf` (types.h:226-246). -/
structure BlOf where
  block : Block
  offset : Nat
  deriving DecidableEq, Repr

/-- `QDense` (qdense.h:35-54). -/
structure QDense (K : Type*) where
  offsets : List BlOf
  size : Nat
  data : Int → K

/-- `Index::blocksize0(i)` (index.cc:636-648, 494); out of range it reads past the sector list. -/
def blocksize0 (I : Index) (b : Nat) : Res Nat :=
  match I.qns[b]? with
  | some q => .ok q.2
  | none => .ub

/-- `Index::qn(1+i)` (index.cc:497, 566-580). -/
def qn0 (I : Index) (b : Nat) : Res Verif.QN.QN :=
  match I.qns[b]? with
  | some q => .ok q.1
  | none => .ub

/-- `std::lexicographical_compare` on lists of numbers. -/
def lexLt : List Nat → List Nat → Bool
  | _, [] => false
  | [], _ :: _ => true
  | a :: as, b :: bs => if a < b then true else if b < a then false else lexLt as bs

/-- `operator<(Block,Block)` (qdense.cc:60-65): compared from the last entry on. -/
def blockLt (a b : Block) : Bool := lexLt a.reverse b.reverse

/-- `operator>(Block,Block)` (qdense.cc:67-68). `operator==` (qdense.cc:47-55) compares the entries of
two blocks of equal length. -/
def blockGt (a b : Block) : Bool := !blockLt a b && a != b

/-- The loop `totdim *= is[j].blocksize0(block[j])` (qdense.cc:152-160, 193-199, qdense.h:502-505,
qutil.h:190-196) from accumulated value `acc` on. -/
def blockDim : IndexSet → Block → Nat → Res Nat
  | [], _, acc => .ok acc
  | _ :: _, [], _ => .ub
  | I :: is, b :: bs, acc => (blocksize0 I b).bind fun n => blockDim is bs (acc * n)

/-- The extents of a block, `make_indexdim` (qutil.h:31-59). -/
def blockExtents : IndexSet → Block → Res (List Nat)
  | [], _ => .ok []
  | _ :: _, [] => .ub
  | I :: is, b :: bs => (blocksize0 I b).bind fun n => (blockExtents is bs).bind fun r => .ok (n :: r)

/-- The loop `blockqn += J.qn(1+I[j])*J.dir()` (qdense.cc:140-145). -/
def blockQN : IndexSet → Block → Verif.QN.QN → Res Verif.QN.QN
  | [], _, q => .ok q
  | _ :: _, [], _ => .ub
  | I :: is, b :: bs, q => (qn0 I b).bind fun x => blockQN is bs (q.add (x.scale I.dir))

/-- The loop over all blocks in `getBlockOffsets` (qdense.cc:137-163), `total` being `totalsize`. -/
def gboLoop (is : IndexSet) (div : Verif.QN.QN) : List Block → Nat → Res (List BlOf × Nat)
  | [], total => .ok ([], total)
  | b :: bs, total =>
    (blockQN is b Verif.QN.QN.default).bind fun q =>
    if q.eq div then
      (blockDim is b 1).bind fun n =>
      (gboLoop is div bs (total + n)).bind fun r => .ok (⟨b, total⟩ :: r.1, r.2)
    else gboLoop is div bs total

/-- `getBlockOffsets(is,div)` (qdense.cc:123-165); `fuel` bounds the range-for loop over blocks. -/
def getBlockOffsets (fuel : Nat) (is : IndexSet) (div : Verif.QN.QN) : Run (List BlOf × Nat) :=
  if is = [] then some (.ok ([⟨[], 0⟩], 1))
  else
    let R := Range.init (is.map (·.nblock))
    match RIter.forEach 0 R fuel (RIter.begin 0 R) with
    | none => none
    | some (.ok l) => some (gboLoop is div (l.map (·.ind)) 0)
    | some .throw => some .throw
    | some .ub => some .ub

/-- The loop of `updateOffsets(is,blocks)` (qdense.cc:190-204). -/
def uoLoop (is : IndexSet) : List Block → Nat → Res (List BlOf × Nat)
  | [], total => .ok ([], total)
  | b :: bs, total =>
    (blockDim is b 1).bind fun n =>
    (uoLoop is bs (total + n)).bind fun r => .ok (⟨b, total⟩ :: r.1, r.2)

/-- `QDense(is,blocks)` (qdense.cc:109-121, 177-206). -/
def ofBlocks {K : Type*} [Zero K] (is : IndexSet) (blocks : List Block) : Res (QDense K) :=
  (if is = [] then .ok ([⟨[], 0⟩], 1) else uoLoop is blocks 0).bind fun r =>
    .ok ⟨r.1, r.2, fun _ => 0⟩

/-- `QDense(is,div)` (qdense.cc:96-104, 167-175). -/
def ofDiv {K : Type*} [Zero K] (fuel : Nat) (is : IndexSet) (div : Verif.QN.QN) : Run (QDense K) :=
  (getBlockOffsets fuel is div).bind fun r => some (.ok ⟨r.1, r.2, fun _ => 0⟩)

/-- `std::lower_bound` / `std::upper_bound` as binary search: `p` holds for the elements to be
skipped. `f` is the first position, `len` the number of elements left. -/
def bound (p : BlOf → Bool) (l : List BlOf) (f len : Nat) : Nat :=
  if len = 0 then f
  else
    match l[f + len / 2]? with
    | some x => if p x then bound p l (f + len / 2 + 1) (len - len / 2 - 1) else bound p l f (len / 2)
    | none => f
termination_by len
decreasing_by all_goals omega

/-- `std::lower_bound(offsets,block,compBlock())`. -/
def lowerBound (l : List BlOf) (b : Block) : Nat := bound (fun x => blockLt x.block b) l 0 l.length

/-- `std::upper_bound`. -/
def upperBound (l : List BlOf) (b : Block) : Nat := bound (fun x => !blockLt b x.block) l 0 l.length

/-- `offsetOf` (qdense.cc:208-215) with `binaryFind` (detail/algs.h:122-131); `none` is `-1`. -/
def offsetOf (l : List BlOf) (b : Block) : Option Nat :=
  if lowerBound l b ≠ upperBound l b then (l[lowerBound l b]?).map (·.offset) else none

/-- The `while` loop of `getEltBlockOffset` (qdense.h:476-481) on the sector sizes from
`block_subind` on; past the last sector `blocksize0` reads out of bounds. -/
def subLoop : List Nat → Nat → Nat → Res (Nat × Nat)
  | [], _, _ => .ub
  | m :: ms, sub, e => if e ≥ m then subLoop ms (sub + 1) (e - m) else .ok (sub, e)

/-- The loop over indices in `getEltBlockOffset` (qdense.h:470-485): block and element offset. -/
def eltLoop : IndexSet → List Nat → Nat → Nat → Res (Block × Nat)
  | _, [], eoff, _ => .ok ([], eoff)
  | [], _ :: _, _, _ => .ub
  | I :: is, e :: es, eoff, estr =>
    (subLoop (I.qns.map (·.2)) 0 e).bind fun s =>
    (blocksize0 I s.1).bind fun n =>
    (eltLoop is es (eoff + s.2 * estr) (estr * n)).bind fun r => .ok (s.1 :: r.1, r.2)

section
variable {K : Type*} [CommRing K]

/-- `getEltBlockOffset` (qdense.h:453-499): position of the element in the store (`none`: null
pointer), its block, the offset inside the block. For order 0 the pointer is `store.data()`, which is
null for an empty vector (true of the usual implementations). -/
def getEltBlockOffset (d : QDense K) (is : IndexSet) (ind : List Nat) :
    Res (Option Nat × Block × Nat) :=
  if ind = [] then .ok (if d.size = 0 then none else some 0, [], 0)
  else (eltLoop is ind 0 1).bind fun r =>
    match offsetOf d.offsets r.1 with
    | some boff => .ok (some (boff + r.2), r.1, r.2)
    | none => .ok (none, r.1, r.2)

/-- `doTask(GetElt,QDense)` (qdense.cc:225-239). -/
def getElt (d : QDense K) (is : IndexSet) (ind : List Nat) : Res K :=
  (getEltBlockOffset d is ind).bind fun r =>
    match r.1 with
    | some p => if p < d.size then .ok (d.data p) else .ub
    | none => .ok 0

/-- The loop that finds where to insert (qdense.h:509-514). -/
def insertLoc (block : Block) : List BlOf → Nat
  | [] => 0
  | o :: os => if blockGt block o.block then insertLoc block os + 1 else 0

/-- The new block's offset (qdense.h:515-522): that of the block now at `loc`, or the end. -/
def newOffset (d : QDense K) (loc : Nat) : Nat :=
  match d.offsets[loc]? with
  | some o => o.offset
  | none => d.size

/-- `insertBlock` (qdense.h:494-533) with value 0. `store.insert` moves the elements from the new
offset on up by the block size. Returns the new storage and the offset. -/
def insertBlock (d : QDense K) (is : IndexSet) (block : Block) : Res (QDense K × Nat) :=
  (blockDim is block 1).bind fun n =>
  let loc := insertLoc block d.offsets
  let newoff := newOffset d loc
  if newoff ≤ d.size then
    .ok (⟨d.offsets.take loc ++ ⟨block, newoff⟩ :: (d.offsets.drop loc).map (fun o => ⟨o.block, o.offset + n⟩),
      d.size + n,
      fun a => if a < newoff then d.data a else if a < newoff + n then 0 else d.data (a - n)⟩, newoff)
  else .ub

/-- One element written. -/
def write (d : QDense K) (p : Nat) (v : K) : Res (QDense K) :=
  if p < d.size then .ok { d with data := fun a => if a = p then v else d.data a } else .ub

/-- `setEltImpl` (qdense.cc:241-262). -/
def setElt (d : QDense K) (is : IndexSet) (ind : List Nat) (v : K) : Res (QDense K) :=
  (getEltBlockOffset d is ind).bind fun r =>
    match r.1 with
    | some p => write d p v
    | none => (insertBlock d is r.2.1).bind fun q => write q.1 (q.2 + r.2.2) v

/-! ## Addition -/

/-- `l[i]` for every `i` of `p`. -/
def pick : List Nat → List Nat → Res (List Nat)
  | _, [] => .ok []
  | l, i :: p =>
    match l[i]? with
    | some x => (pick l p).bind fun r => .ok (x :: r)
    | none => .ub

/-- `getBlock(d,is,block)` (qutil.h:71-91): offset of the block's data, `none` if absent; for order
0 all the data. -/
def getBlock (d : QDense K) (block : Block) : Option Nat :=
  if block = [] then (if d.size = 0 then none else some 0) else offsetOf d.offsets block

/-- Body of the loop over the blocks of `A` in `add` (qdense.cc:531-548), for the block `aio`:
`transform(permute(bref,P),aref,Adder{alpha})` on the memory at the two offsets. -/
def addBlock (fuel : Nat) (P : Permutation) (is1 is2 : IndexSet) (alpha : K) (B : QDense K)
    (A : QDense K) (aio : BlOf) : Run (QDense K) :=
  match pick aio.block P with
  | .ok bblk =>
    match getBlock B bblk with
    | none => some (.ok A)
    | some boff =>
      match blockExtents is1 aio.block, blockExtents is2 bblk with
      | .ok ea, .ok eb =>
        match Range.permuteRange (Range.init eb) P with
        | .ok V =>
          (runTransform fuel (fun v2 v1 => v1 + alpha * v2) V (Range.init ea)
            (fun a => B.data (boff + a)) (fun a => A.data (aio.offset + a))).bind fun m =>
          some (.ok { A with data := fun a => m (a - aio.offset) })
        | _ => some .ub
      | _, _ => some .ub
  | _ => some .ub

/-- Run a step that may not end over a list. -/
def runFold {σ ι} (f : σ → ι → Run σ) : σ → List ι → Run σ
  | s, [] => some (.ok s)
  | s, i :: is => (f s i).bind fun s' => runFold f s' is

/-- `add(P,A,B)` (qdense.cc:508-549). -/
def add (fuel : Nat) (P : Permutation) (is1 is2 : IndexSet) (alpha : K) (A B : QDense K) :
    Run (QDense K) :=
  if is1 = [] then some (.ok { A with data := fun a => if 0 ≤ a ∧ a < A.size then A.data a + alpha * B.data a else A.data a })
  else runFold (addBlock fuel P is1 is2 alpha B) A A.offsets

/-- The three `while` loops that merge the two sorted block lists (qdense.cc:605-642). -/
def mergeBlocks : List Block → List Block → List Block
  | [], bs => bs
  | as, [] => as
  | a :: as, b :: bs =>
    if blockLt b a then b :: mergeBlocks (a :: as) bs
    else if blockLt a b then a :: mergeBlocks as (b :: bs)
    else a :: mergeBlocks as bs
termination_by as bs => as.length + bs.length

/-- `std::sort` of blocks: the blocks sorted by `<`. -/
def sortBlocks (l : List Block) : List Block := l.mergeSort (fun a b => !blockLt b a)

/-- All `pick`s. -/
def pickAll (p : List Nat) : List Block → Res (List Block)
  | [] => .ok []
  | b :: bs => (pick b p).bind fun x => (pickAll p bs).bind fun r => .ok (x :: r)

/-- `doTask(PlusEQ,QDense,QDense)` (qdense.cc:551-672), one element type. -/
def plusEq (fuel : Nat) (P : Permutation) (is1 is2 : IndexSet) (alpha : K) (A B : QDense K) :
    Run (QDense K) :=
  if B.size = 0 then some (.ok A)
  else if is1 = [] then add fuel P is1 is2 alpha A B
  else
    match Permutation.inverse P with
    | .ok inv =>
      match pickAll inv (B.offsets.map (·.block)) with
      | .ok bps =>
        let cblocks := mergeBlocks (A.offsets.map (·.block)) (sortBlocks bps)
        if A.offsets.length < cblocks.length then
          match ofBlocks (K := K) is1 cblocks with
          | .ok nA =>
            (add fuel (Permutation.ident is1.length) is1 is1 1 nA A).bind fun nA' =>
              add fuel P is1 is2 alpha nA' B
          | _ => some .ub
        else add fuel P is1 is2 alpha A B
      | _ => some .ub
    | _ => some .ub

/-! ## Contraction -/

/-- `AtoC`, `BtoC`, `AtoB` of `getContractedOffsets` (qutil.h:107-135), seen from the destination: where
each entry of the block of `C` comes from (`Sum.inl`: position in `A`, `Sum.inr`: position in `B`). If
an index of `C` is in neither, `BtoC[-1]` is written out of bounds. -/
def cSource (Ais Bis : IndexSet) : IndexSet → Res (List (Nat ⊕ Nat))
  | [] => .ok []
  | I :: Cis =>
    match Verif.Index.IndexSet.indexPosition Ais I, Verif.Index.IndexSet.indexPosition Bis I with
    | some j, _ => (cSource Ais Bis Cis).bind fun r => .ok (.inl j :: r)
    | none, some j => (cSource Ais Bis Cis).bind fun r => .ok (.inr j :: r)
    | none, none => .ub

/-- `AtoB` (qutil.h:125-133): for each index of `A` the first equal index of `B`. -/
def aToB (Ais Bis : IndexSet) : List (Option Nat) :=
  Ais.map fun I => Bis.findIdx? (fun J => I.eq J)

/-- The test `do_blocks_contract` (qutil.h:164-175). -/
def blocksContract : List (Option Nat) → Block → Block → Bool
  | [], _, _ => true
  | _ :: _, [], _ => true
  | o :: os, x :: a, b =>
    match o with
    | none => blocksContract os a b
    | some j => if some x ≠ b[j]? then false else blocksContract os a b

/-- The block of `C` (qutil.h:156-158, 178-180). -/
def cBlock (src : List (Nat ⊕ Nat)) (a b : Block) : Block :=
  src.map fun s => match s with
    | .inl j => a.getD j 0
    | .inr j => b.getD j 0

/-- One entry of `blockContractions`: the blocks of `A`, `B`, `C`. -/
structure Task where
  a : Block
  b : Block
  c : Block
  deriving DecidableEq, Repr

/-- The two loops over the blocks (qutil.h:150-205), sequential build. -/
def tasks (Ais Bis : IndexSet) (src : List (Nat ⊕ Nat)) (Ab Bb : List Block) : List Task :=
  Ab.flatMap fun a => (Bb.filter fun b => blocksContract (aToB Ais Bis) a b).map fun b =>
    ⟨a, b, cBlock src a b⟩

/-- `std::unique` on the block labels (qutil.h:229-234). -/
def uniqBlocks : List Block → List Block
  | a :: b :: l => if a = b then uniqBlocks (b :: l) else a :: uniqBlocks (b :: l)
  | l => l

/-- `getContractedOffsets` (qutil.h:94-247): block offsets and size of `C`, and the task list. The
sizes are computed per task in the code, here per distinct block (equal blocks have equal sizes). -/
def getContractedOffsets (Ais : IndexSet) (Ab : List Block) (Bis : IndexSet) (Bb : List Block)
    (Cis : IndexSet) : Res (List BlOf × Nat × List Task) :=
  (cSource Ais Bis Cis).bind fun src =>
    let ts := tasks Ais Bis src Ab Bb
    (uoLoop Cis (uniqBlocks (sortBlocks (ts.map (·.c)))) 0).bind fun r => .ok (r.1, r.2, ts)

/-- State while contracting: the memory of `C` and the flags `betas` (indexed by block position). -/
structure CState (K : Type*) where
  data : Int → K
  betas : Nat → K

variable [DecidableEq K]

/-- `do_contract` (qdense.cc:703-733) together with the lookups of `_loopContractedBlocks`
(qutil.h:263-273), for one task. -/
def doContract (fuel : Nat) (Lis Ris Nis : IndexSet) (Lind Rind Cind : List Int) (A B : QDense K)
    (Coff : List BlOf) (Csize : Nat) (junk : Int → K) (s : CState K) (t : Task) : Run (CState K) :=
  match getBlock A t.a, getBlock B t.b, getBlock ⟨Coff, Csize, s.data⟩ t.c with
  | some ao, some bo, some co =>
    match blockExtents Lis t.a, blockExtents Ris t.b, blockExtents Nis t.c with
    | .ok ea, .ok eb, .ok ec =>
      let loc := lowerBound Coff t.c
      (contract fuel (Range.init ea) Lind (Range.init eb) Rind (Range.init ec) Cind
        (fun a => A.data (ao + a)) (fun a => B.data (bo + a)) (fun a => s.data (co + a)) junk 1
        (s.betas loc)).bind fun m =>
      some (.ok ⟨fun a => m (a - co), fun k => if k = loc then 1 else s.betas k⟩)
    | _, _, _ => some .ub
  | _, _, _ => some .ub

/-- `doTask(Contract,QDense,QDense)` (qdense.cc:679-745) with the tasks run in the order `order ts`
(`id` for the sequential build, see `Schedule` for the parallel one). `mem` is the uninitialised
memory of the new storage. -/
def contractQ (order : List Task → List Task) (fuel : Nat) (Lis Ris : IndexSet) (A B : QDense K)
    (mem junk : Int → K) : Run (QDense K × List (Index × Int)) :=
  let lab := Verif.Index.IndexSet.computeLabels Lis Ris
  let N := Verif.Index.IndexSet.contractIS Lis Ris lab.1 lab.2.1
  match getContractedOffsets Lis (A.offsets.map (·.block)) Ris (B.offsets.map (·.block)) (N.map (·.1)) with
  | .ok (Coff, Csize, ts) =>
    (runFold (doContract fuel Lis Ris (N.map (·.1)) lab.1 lab.2.1 (N.map (·.2)) A B Coff Csize junk)
      ⟨mem, fun _ => 0⟩ (order ts)).bind fun s => some (.ok (⟨Coff, Csize, s.data⟩, N))
  | .throw => some .throw
  | .ub => some .ub

end

end Verif.QDense
