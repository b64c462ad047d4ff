import Verif.TagSet.Props
import Verif.QN.Props
import Verif.Index.Model
import Mathlib.Tactic.Common

/-!
# Model of binary streams (util/readwrite.h and the `read`/`write` of each class)

An output stream is the list of bytes written so far, an input stream the list of bytes not yet read.
Plain types are `sizeof(T)` bytes, little-endian two's complement (x86-64).  A `Real` is the 64 bits of
the double.  Reading past the end leaves the C++ object indeterminate; it is outcome `ub` here.
-/

namespace Verif.Stream

open Verif.TagSet (Tag TagSet)
open Verif.QN (QNum)
open Verif.Index (Index)

abbrev Bytes := List UInt8

/-- Reading a value: what was read and the bytes that are left. -/
abbrev Reader (α : Type*) := Bytes → Res (α × Bytes)

/-- Sequencing of reads. -/
def Reader.bind {α β : Type*} (r : Reader α) (f : α → Reader β) : Reader β :=
  fun s => (r s).bind fun p => f p.1 p.2

def Reader.pure {α : Type*} (a : α) : Reader α := fun s => .ok (a, s)

/-- `s.read(p,n)`. -/
def readN (n : Nat) : Reader Bytes := fun s =>
  if n ≤ s.length then .ok (s.take n, s.drop n) else .ub

/-- `k` little-endian bytes of `n`. -/
def leBytes : Nat → Nat → Bytes
  | 0, _ => []
  | k + 1, n => UInt8.ofNat n :: leBytes k (n / 256)

/-- Value of little-endian bytes. -/
def leVal : Bytes → Nat
  | [] => 0
  | b :: l => b.toNat + 256 * leVal l

/-- `write` of an unsigned plain type of `k` bytes (readwrite.h:134-140). -/
def writeU (k n : Nat) : Bytes := leBytes k n

/-- `read` of an unsigned plain type of `k` bytes (readwrite.h:69-76). -/
def readU (k : Nat) : Reader Nat := (readN k).bind fun b => .pure (leVal b)

/-- `write` of a signed plain type of `k` bytes (readwrite.h:134-140). -/
def writeI (k : Nat) (z : Int) : Bytes := leBytes k (z % 256 ^ k).toNat

/-- `read` of a signed plain type of `k` bytes (readwrite.h:69-76). -/
def readI (k : Nat) : Reader Int := (readU k).bind fun n =>
  .pure (if 2 * n < 256 ^ k then (n : Int) else (n : Int) - 256 ^ k)

/-- `write` of a `bool`, one byte 0 or 1 (readwrite.h:134-140). -/
def writeBool (b : Bool) : Bytes := [if b then 1 else 0]

/-- `read` of a `bool`; a byte other than 0 and 1 is not a value of the type (readwrite.h:69-76). -/
def readBool : Reader Bool := (readN 1).bind fun b =>
  if b = [0] then .pure false else if b = [1] then .pure true else fun _ => .ub

/-- The 64 bits of a `Real`. -/
abbrev Real64 := UInt64

def writeReal (x : Real64) : Bytes := writeU 8 x.toNat
def readReal : Reader Real64 := (readU 8).bind fun n => .pure (UInt64.ofNat n)

/-- `Cplx`: real then imaginary part (readwrite.h:160-176). -/
def writeCplx (z : Real64 × Real64) : Bytes := writeReal z.1 ++ writeReal z.2
def readCplx : Reader (Real64 × Real64) :=
  readReal.bind fun r => readReal.bind fun i => .pure (r, i)

/-- `std::string`: length then the characters (readwrite.h:142-157). -/
def writeString (l : Bytes) : Bytes := writeU 8 l.length ++ l
def readString : Reader Bytes := (readU 8).bind readN

/-- Read `n` elements one after the other: the loop `for(auto& el : a) read(s,el)`. -/
def readMany {α : Type*} (r : Reader α) : Nat → Reader (List α)
  | 0 => .pure []
  | n + 1 => r.bind fun a => (readMany r n).bind fun l => .pure (a :: l)

/-- Write elements one after the other, `for(auto& el : a) write(s,el)`; also the raw block write of a
trivial element type, whose bytes are those of the elements in order. -/
def writeMany {α : Type*} (w : α → Bytes) (l : List α) : Bytes := l.flatMap w

/-- `std::vector<T>` (readwrite.h:195-233) and `InfArray<T,N>` (readwrite.h:276-327): the size as
`size_t`, then the elements. -/
def writeVec {α : Type*} (w : α → Bytes) (l : List α) : Bytes := writeU 8 l.length ++ writeMany w l
def readVec {α : Type*} (r : Reader α) : Reader (List α) := (readU 8).bind (readMany r)

/-- `std::array<T,N>` (readwrite.h:235-266): the elements only. -/
def writeArr {α : Type*} (w : α → Bytes) (l : List α) : Bytes := writeMany w l
def readArr {α : Type*} (n : Nat) (r : Reader α) : Reader (List α) := readMany r n

/-- `SmallString` (smallstring.h:172-184): its seven characters. -/
def writeTag (t : Tag) : Bytes := t.chars
def readTag : Reader Tag := (readN 7).bind fun b => .pure (Tag.ofBytes b)

/-- `write(TagSet)` (tagset.cc:264-270). -/
def writeTags (ts : TagSet) : Bytes := writeMany writeTag ts.tags ++ writeI 4 ts.plev

/-- Loop of `read(TagSet)` (tagset.cc:276-281): read a tag, add it. -/
def readTagsLoop : Nat → TagSet → Reader TagSet
  | 0, ts => .pure ts
  | n + 1, ts => readTag.bind fun t => fun s => (ts.addTag t).bind fun ts' => readTagsLoop n ts' s

/-- `read(TagSet)` into `ts` (tagset.cc:272-285). -/
def readTags (ts : TagSet) : Reader TagSet :=
  (readTagsLoop Verif.TagSet.maxTags ts).bind fun ts' => (readI 4).bind fun p => .pure (ts'.setPrime p)

/-- `write(QNum)` (qn.cc:99-105). -/
def writeQNum (q : QNum) : Bytes := writeTag q.name ++ (writeI 4 q.val ++ writeI 4 q.mod)

/-- `read(QNum)` (qn.cc:87-97). -/
def readQNum : Reader QNum :=
  readTag.bind fun n => (readI 4).bind fun v => (readI 4).bind fun m => .pure (QNum.make n v m)

/-- `write(QN)`, `read(QN)` (qn.cc:498-508): the four slots. -/
def writeQN (q : Verif.QN.QN) : Bytes := writeMany writeQNum q
def readQN : Reader Verif.QN.QN := readMany readQNum Verif.QN.qnSize

/-- `write(QNInt)`, `read(QNInt)` (index.cc:561-573): the QN and a `long`. -/
def writeQNInt (q : Verif.QN.QN × Nat) : Bytes := writeQN q.1 ++ writeI 8 q.2
def readQNInt : Reader (Verif.QN.QN × Nat) :=
  readQN.bind fun q => (readI 8).bind fun n => .pure (q, n.toNat)

/-- `bool(Index)` (index.h): the id is not 0. -/
def isSet (I : Index) : Bool := I.id != 0

/-- `Index::write` (index.cc:711-721): tags, id (64 bit), dimension and arrow (`int`), then the QN data
(an empty vector if there is none). -/
def writeIndex (I : Index) : Res Bytes :=
  if isSet I then
    .ok (writeTags I.tags ++ (writeU 8 I.id ++ (writeI 4 I.dim ++ (writeI 4 I.dir ++ writeVec writeQNInt I.qns))))
  else .throw

/-- `Index::read` (index.cc:723-751) into `J`, 64-bit ids. Simplification: `Global::read32BitIDs()` is
false (the default). -/
def readIndex (J : Index) : Reader Index :=
  (readTags J.tags).bind fun ts => (readU 8).bind fun id => (readI 4).bind fun d => (readI 4).bind fun dir =>
    (readVec readQNInt).bind fun q =>
      .pure { id := id, dim := d.toNat, dir := dir, tags := ts, qns := if q.length > 0 then q else J.qns }

/-- A default-constructed `Index` (index.cc:98-103): id 0, dimension 1, arrow Out. -/
def nullIndex : Index := ⟨0, 1, 1, TagSet.default, []⟩

/-- Write a list of things that can fail to be written. -/
def writeManyR {α : Type*} (w : α → Res Bytes) : List α → Res Bytes
  | [] => .ok []
  | a :: l => (w a).bind fun b => (writeManyR w l).bind fun b' => .ok (b ++ b')

/-- `IndStr<Index>::write` (range.h:62-67): index and stride. -/
def writeIndStr (x : Index × Nat) : Res Bytes := (writeIndex x.1).bind fun b => .ok (b ++ writeU 8 x.2)

/-- `IndStr<Index>::read` (range.h:68-73) into a default-constructed element. -/
def readIndStr : Reader (Index × Nat) :=
  (readIndex nullIndex).bind fun i => (readU 8).bind fun n => .pure (i, n)

/-- `write(IndexSet)` (range.h:284-289): the `InfArray` of indices with strides. -/
def writeInds (l : List (Index × Nat)) : Res Bytes :=
  (writeManyR writeIndStr l).bind fun b => .ok (writeU 8 l.length ++ b)

/-- `read(IndexSet)` (range.h:291-299): into a new array, which replaces the old one. -/
def readInds : Reader (List (Index × Nat)) := readVec readIndStr

/-- `BlOf` (readwrite.h:329-341): the block (an `InfArray<long,N>`) and the offset (`long`). -/
def writeBlOf (b : List Int × Int) : Bytes := writeVec (writeI 8) b.1 ++ writeI 8 b.2
def readBlOf : Reader (List Int × Int) :=
  (readVec (readI 8)).bind fun b => (readI 8).bind fun o => .pure (b, o)

/-- `IndStr<size_t>` (range.h:62-73). -/
def writeExtStr (x : Nat × Nat) : Bytes := writeU 8 x.1 ++ writeU 8 x.2
def readExtStr : Reader (Nat × Nat) := (readU 8).bind fun a => (readU 8).bind fun b => .pure (a, b)

/-- `QCombiner::BlockRange` (qcombiner.h:27-49): block, start, extent. -/
def writeBlockRange (x : Nat × Nat × Nat) : Bytes := writeU 8 x.1 ++ (writeU 8 x.2.1 ++ writeU 8 x.2.2)
def readBlockRange : Reader (Nat × Nat × Nat) :=
  (readU 8).bind fun a => (readU 8).bind fun b => (readU 8).bind fun c => .pure (a, b, c)

/-- Storage types (task_types.h:452-472), with the data `read`/`write` see. -/
inductive Storage where
  | denseReal (store : List Real64)
  | denseCplx (store : List (Real64 × Real64))
  | combiner
  | diagReal (val : Real64) (length : Nat) (store : List Real64)
  | diagCplx (val : Real64 × Real64) (length : Nat) (store : List (Real64 × Real64))
  | qdenseReal (offsets : List (List Int × Int)) (store : List Real64)
  | qdenseCplx (offsets : List (List Int × Int)) (store : List (Real64 × Real64))
  | qcombiner (range : List (Nat × Nat)) (store : List (Nat × Nat × Nat))
  | qdiagReal (val : Real64) (length : Nat) (store : List Real64)
  | qdiagCplx (val : Real64 × Real64) (length : Nat) (store : List (Real64 × Real64))
  | scalarReal (val : Real64)
  | scalarCplx (val : Real64 × Real64)
  deriving DecidableEq, Repr

/-- `doTask(StorageType,..)` (the `StorageType` overload of each storage class) with the enum values
of task_types.h:456-471. -/
def Storage.code : Storage → Int
  | .denseReal .. => 1
  | .denseCplx .. => 2
  | .combiner => 3
  | .diagReal .. => 4
  | .diagCplx .. => 5
  | .qdenseReal .. => 6
  | .qdenseCplx .. => 7
  | .qcombiner .. => 8
  | .qdiagReal .. => 9
  | .qdiagCplx .. => 10
  | .scalarReal .. => 11
  | .scalarCplx .. => 12

/-- `write` of each storage: dense.h:157-162, combiner.h:39-40, diag.h:148-155, qdense.h:234-240,
qcombiner.cc:43-48, qdiag.h:123-130, scalar.h:88-93. -/
def Storage.write : Storage → Bytes
  | .denseReal s => writeVec writeReal s
  | .denseCplx s => writeVec writeCplx s
  | .combiner => []
  | .diagReal v n s => writeReal v ++ (writeU 8 n ++ writeVec writeReal s)
  | .diagCplx v n s => writeCplx v ++ (writeU 8 n ++ writeVec writeCplx s)
  | .qdenseReal o s => writeVec writeBlOf o ++ writeVec writeReal s
  | .qdenseCplx o s => writeVec writeBlOf o ++ writeVec writeCplx s
  | .qcombiner r s => writeVec writeExtStr r ++ writeVec writeBlockRange s
  | .qdiagReal v n s => writeReal v ++ (writeU 8 n ++ writeVec writeReal s)
  | .qdiagCplx v n s => writeCplx v ++ (writeU 8 n ++ writeVec writeCplx s)
  | .scalarReal v => writeReal v
  | .scalarCplx v => writeCplx v

/-- Shape shared by `Diag` and `QDiag` (diag.h:139-146, qdiag.h:132-139). -/
def readDiag {α : Type*} (r : Reader α) (mk : α → Nat → List α → Storage) : Reader Storage :=
  r.bind fun v => (readU 8).bind fun n => (readVec r).bind fun s => .pure (mk v n s)

/-- `QDense` (qdense.h:242-248). -/
def readQDense {α : Type*} (r : Reader α) (mk : List (List Int × Int) → List α → Storage) : Reader Storage :=
  (readVec readBlOf).bind fun o => (readVec r).bind fun s => .pure (mk o s)

/-- Dispatch of `ITensor::read` (itensor.cc:794-810); `old` is the storage of the tensor read into. -/
def readStorage (old : Option Storage) (code : Int) : Reader (Option Storage) :=
  if code = 0 then .pure old
  else if code = 1 then (readVec readReal).bind fun s => .pure (some (.denseReal s))
  else if code = 2 then (readVec readCplx).bind fun s => .pure (some (.denseCplx s))
  else if code = 3 then .pure (some .combiner)
  else if code = 4 then (readDiag readReal .diagReal).bind fun s => .pure (some s)
  else if code = 5 then (readDiag readCplx .diagCplx).bind fun s => .pure (some s)
  else if code = 6 then (readQDense readReal .qdenseReal).bind fun s => .pure (some s)
  else if code = 7 then (readQDense readCplx .qdenseCplx).bind fun s => .pure (some s)
  else if code = 9 then (readDiag readReal .qdiagReal).bind fun s => .pure (some s)
  else if code = 10 then (readDiag readCplx .qdiagCplx).bind fun s => .pure (some s)
  else if code = 8 then (readVec readExtStr).bind fun r => (readVec readBlockRange).bind fun s =>
    .pure (some (.qcombiner r s))
  else if code = 11 then readReal.bind fun v => .pure (some (.scalarReal v))
  else if code = 12 then readCplx.bind fun v => .pure (some (.scalarCplx v))
  else fun _ => .throw

/-- `LogNum` (real.h:72-77): logarithm of the magnitude and sign. -/
structure LogNum where
  log : Real64
  sign : Int
  deriving DecidableEq, Repr

/-- real.h:150-161. -/
def writeLog (x : LogNum) : Bytes := writeReal x.log ++ writeI 4 x.sign
def readLog : Reader LogNum := readReal.bind fun a => (readI 4).bind fun b => .pure ⟨a, b⟩

/-- An `ITensor`: indices with strides, scale, storage (`none` = null pointer). -/
structure Tensor where
  inds : List (Index × Nat)
  scale : LogNum
  store : Option Storage
  deriving DecidableEq, Repr

/-- `ITensor::write` (itensor.cc:768-783). -/
def writeTensor (T : Tensor) : Res Bytes :=
  (writeInds T.inds).bind fun b => .ok (b ++ (writeLog T.scale ++ (match T.store with
    | none => writeI 4 0
    | some s => writeI 4 s.code ++ s.write)))

/-- `ITensor::read` (itensor.cc:785-811) into `old`. Simplification: the scale read is always kept
(it is dropped when the library is built without `USESCALE`, where it is 1 anyway). -/
def readTensor (old : Tensor) : Reader Tensor :=
  readInds.bind fun is => readLog.bind fun sc => (readI 4).bind fun code =>
    (readStorage old.store code).bind fun st => .pure ⟨is, sc, st⟩

end Verif.Stream
