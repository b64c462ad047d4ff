import Verif.QDense.Model
import Verif.QN.Model

/-!
# HDF5 files

Source: `h5_write` and `h5_read` of `TagSet` (tagset.cc), `QN` (qn.cc), `Index` (index.cc), `IndexSet` (indexset.cc), `Dense` (dense.cc), `QDense` (qdense.cc),
`ITensor` (itensor.cc), `MPS` (mps.cc) and `MPO` (mpo.cc). The HDF5 library is not modelled: a group is a list of attributes and of named members, and a number, string or
array written is the one read. `long` and `size_t` are integers without bounds. If a function throws, what it has written so far is not looked at.
-/

namespace Verif.Hdf5

open Verif.Index Verif.QDense
open Verif.TagSet (TagSet)

/-- Names of the members of a group. `num s n` is `tinyformat::format(s,n)` for the three formats used ("QN[%d]", "index_%d" and "MPS[%d]" or "MPO[%d]"), which gives
different names for different numbers and none of the fixed names. -/
inductive Key where
  | fixed (s : String)
  | num (s : String) (n : Nat)
  deriving DecidableEq

/-- Values of attributes. -/
inductive Attr where
  | str (s : String)
  | long (n : Int)
  deriving DecidableEq

/-- What is stored under a name: a group or a dataset. -/
inductive Node (R C : Type) where
  | group (attrs : List (String × Attr)) (subs : List (Key × Node R C))
  | long (n : Int)
  | ulong (n : Nat)
  | str (s : List UInt8)
  | longs (l : List Int)
  | names (l : List Verif.QN.Name)
  | reals (l : List R)
  | cplxs (l : List C)

/-- A group: attributes and members. -/
structure Group (R C : Type) where
  attrs : List (String × Attr)
  subs : List (Key × Node R C)

variable {R C : Type}

/-- Write a dataset or a group under a name: what was there is unlinked (`create_group`, group.cc:76-83). -/
def put (g : Group R C) (k : Key) (x : Node R C) : Group R C := { g with subs := (k, x) :: g.subs.filter (fun p => p.1 ≠ k) }

/-- The member with a name, an exception if there is none (group.cc:68-90). -/
def find (g : Group R C) (k : Key) : Res (Node R C) :=
  match g.subs.find? (fun p => p.1 = k) with
  | some p => .ok p.2
  | none => .throw

/-- `open_group` (group.cc:68-74). -/
def openGroup (g : Group R C) (k : Key) : Res (Group R C) :=
  match find g k with
  | .ok (.group a s) => .ok ⟨a, s⟩
  | _ => .throw

/-- `h5_read<long>`; another type of data is an error (array_interface.cc:118-130). -/
def getLong (g : Group R C) (k : Key) : Res Int := match find g k with | .ok (.long n) => .ok n | _ => .throw
/-- `h5_read<unsigned long>` -/
def getUlong (g : Group R C) (k : Key) : Res Nat := match find g k with | .ok (.ulong n) => .ok n | _ => .throw
/-- `h5_read<string>` -/
def getStr (g : Group R C) (k : Key) : Res (List UInt8) := match find g k with | .ok (.str n) => .ok n | _ => .throw
/-- `h5_read<vector<long>>` -/
def getLongs (g : Group R C) (k : Key) : Res (List Int) := match find g k with | .ok (.longs n) => .ok n | _ => .throw
/-- `h5_read<vector<string>>` -/
def getNames (g : Group R C) (k : Key) : Res (List Verif.QN.Name) := match find g k with | .ok (.names n) => .ok n | _ => .throw
/-- `h5_read<vector<Real>>` -/
def getReals (g : Group R C) (k : Key) : Res (List R) := match find g k with | .ok (.reals n) => .ok n | _ => .throw
/-- `h5_read<vector<Cplx>>` -/
def getCplxs (g : Group R C) (k : Key) : Res (List C) := match find g k with | .ok (.cplxs n) => .ok n | _ => .throw

/-- `h5_read_attribute<string>` (array_interface.cc:146-166). -/
def getAttr (g : Group R C) (s : String) : Res String :=
  match g.attrs.find? (fun p => p.1 = s) with
  | some (_, .str t) => .ok t
  | _ => .throw

/-- The check of the attribute "type" with which every function begins to read. -/
def checkType (g : Group R C) (t : String) : Res Unit := (getAttr g "type").bind fun s => if s ≠ t then .throw else .ok ()

/-- A new group with the attributes "type" and "version". -/
def newGroup (t : String) : Group R C := ⟨[("type", .str t), ("version", .long 1)], []⟩

/-- The group as a member. -/
def Group.node (g : Group R C) : Node R C := .group g.attrs g.subs

/-- `h5_write(TagSet)` (tagset.cc:287-297) -/
def tagsNode (t : TagSet) : Node R C :=
  (put (put (newGroup "TagSet") (.fixed "plev") (.long t.plev)) (.fixed "tags") (.str t.tagString)).node

/-- `h5_read(TagSet)` (tagset.cc:299-312) -/
def readTags (g : Group R C) (k : Key) : Res TagSet :=
  (openGroup g k).bind fun g => (checkType g "TagSet").bind fun _ => (getLong g (.fixed "plev")).bind fun p =>
    (getStr g (.fixed "tags")).bind fun s => TagSet.h5read (s, p)

/-- `h5_write(QN)` (qn.cc:512-530) -/
def qnNode (q : Verif.QN.QN) : Node R C :=
  (put (put (put (newGroup "QN") (.fixed "names") (.names (q.map (·.name)))) (.fixed "vals") (.longs (q.map (·.val))))
    (.fixed "mods") (.longs (q.map (·.mod)))).node

/-- `h5_read(QN)` (qn.cc:532-546) -/
def readQN (g : Group R C) (k : Key) : Res Verif.QN.QN :=
  (openGroup g k).bind fun g => (checkType g "QN").bind fun _ => (getNames g (.fixed "names")).bind fun n =>
    (getLongs g (.fixed "vals")).bind fun v => (getLongs g (.fixed "mods")).bind fun m =>
      if n.length < 4 ∨ v.length < 4 ∨ m.length < 4 then .ub else Verif.QN.QN.h5read (((n.zip (v.zip m))).take 4)

/-- The loop of a function which writes numbered members. -/
def putAll (s : String) : Nat → List (Node R C) → Group R C → Group R C
  | _, [], g => g
  | n, x :: xs, g => putAll s (n + 1) xs (put g (.num s n) x)

/-- The loop of a function which reads `c` numbered members, the first with number `n`. -/
def readAll {α : Type} (f : Nat → Res α) : Nat → Nat → Res (List α)
  | _, 0 => .ok []
  | n, c + 1 => (f n).bind fun x => (readAll f (n + 1) c).bind fun r => .ok (x :: r)

/-- The group "space" of an Index with quantum numbers (index.cc:782-795) -/
def spaceNode (qns : List (Verif.QN.QN × Nat)) : Node R C :=
  (put (putAll "QN[%d]" 1 (qns.map fun q => qnNode q.1) (put (newGroup "QNBlocks") (.fixed "length") (.long qns.length)))
    (.fixed "dims") (.longs (qns.map fun q => (q.2 : Int)))).node

/-- `h5_write(Index)` (index.cc:767-800) -/
def indexNode (i : Index) : Node R C :=
  let g := put (put (put (put (put (newGroup "Index") (.fixed "id") (.ulong i.id)) (.fixed "dim") (.long i.dim)) (.fixed "dir") (.long i.dir))
    (.fixed "plev") (.long i.tags.plev)) (.fixed "tags") (tagsNode i.tags)
  if i.qns.isEmpty then Group.node { g with attrs := g.attrs ++ [("space_type", .str "Int")] }
  else Group.node (put { g with attrs := g.attrs ++ [("space_type", .str "QNBlocks")] } (.fixed "space") (spaceNode i.qns))

/-- `toArrow` (arrow.h:55-61) -/
def toArrow (n : Int) : Int := if n = -1 then -1 else 1

/-- The sectors of an Index (index.cc:815-824) -/
def readSpace (g : Group R C) : Res (List (Verif.QN.QN × Nat)) :=
  (openGroup g (.fixed "space")).bind fun qg => (getLong qg (.fixed "length")).bind fun n => (getLongs qg (.fixed "dims")).bind fun dims =>
    if n < 0 then .throw
    else readAll (fun m => (readQN qg (.num "QN[%d]" m)).bind fun q => match dims[m - 1]? with
      | some d => .ok (q, d.toNat)
      | none => .ub) 1 n.toNat

/-- `h5_read(Index)` (index.cc:802-834) with the constructors of index.cc:75-101. -/
def readIndex (g : Group R C) (k : Key) : Res Index :=
  (openGroup g k).bind fun g => (checkType g "Index").bind fun _ => (getUlong g (.fixed "id")).bind fun id =>
    (getLong g (.fixed "dim")).bind fun dim => (getLong g (.fixed "dir")).bind fun dir => (readTags g (.fixed "tags")).bind fun tags =>
      (getAttr g "space_type").bind fun sp => (if sp = "QNBlocks" then readSpace g else .ok []).bind fun qns =>
        (getLong g (.fixed "plev")).bind fun plev =>
          .ok (Index.setPrime ⟨id, dim.toNat, toArrow dir, if tags.plev < 0 then tags.setPrime 0 else tags, qns⟩ plev)

/-- `h5_write(IndexSet)` (indexset.cc:693-706) -/
def indsNode (is : IndexSet) : Node R C :=
  (putAll "index_%d" 1 (is.map indexNode) (put (newGroup "IndexSet") (.fixed "length") (.long is.length))).node

/-- `h5_read(IndexSet)` (indexset.cc:708-724) -/
def readInds (g : Group R C) (k : Key) : Res IndexSet :=
  (openGroup g k).bind fun g => (checkType g "IndexSet").bind fun _ => (getLong g (.fixed "length")).bind fun n =>
    if n < 0 then .throw else readAll (fun m => readIndex g (.num "index_%d" m)) 1 n.toNat

/-- `offsets_to_array` (qdense.cc:985-1002); a block with fewer than `N` numbers is read past its end. -/
def offsetsToArray (N : Nat) : List BlOf → Res (List Int)
  | [] => .ok []
  | b :: bs => if b.block.length < N then .ub
    else (offsetsToArray N bs).bind fun r => .ok ((b.block.take N).map (fun x : Nat => (x : Int) + 1) ++ (b.offset : Int) :: r)

/-- `array_to_offsets` (qdense.cc:1004-1021), `n` blocks. -/
def arrayToOffsets (N : Nat) : Nat → List Int → List BlOf
  | 0, _ => []
  | n + 1, a => ⟨(a.take N).map (fun x => (x - 1).toNat), (a.getD N 0).toNat⟩ :: arrayToOffsets N n (a.drop (N + 1))

/-- The kinds of storage: those which can be written, and the others (diagonal, with quantum numbers or not, combiner, scalar). -/
inductive Sto (R C : Type) where
  | real (l : List R)
  | cplx (l : List C)
  | qreal (o : List BlOf) (l : List R)
  | qcplx (o : List BlOf) (l : List C)
  | other

/-- A tensor; the storage is absent if it is not allocated. -/
structure Ten (R C : Type) where
  is : IndexSet
  sto : Option (Sto R C)

/-- The number of indices of the blocks (qdense.cc:1041-1042) -/
def ndims (o : List BlOf) : Nat := match o with | [] => 0 | b :: _ => b.block.length

/-- `h5_write(QDense)` (qdense.cc:1034-1048); `data` is the node of the elements. -/
def qNode (t : String) (o : List BlOf) (data : Node R C) : Res (Node R C) :=
  (offsetsToArray (ndims o) o).bind fun a => .ok (put (put (put (newGroup t) (.fixed "ndims") (.long (ndims o))) (.fixed "offsets") (.longs a))
    (.fixed "data") data).node

/-- `h5_write` of the storage (dense.cc:448-457, qdense.cc:1034-1048). For the others there is no such function and the task is not defined
(dotask.h:536). -/
def stoNode : Sto R C → Res (Node R C)
  | .real l => .ok (put (newGroup "Dense{Float64}") (.fixed "data") (.reals l)).node
  | .cplx l => .ok (put (newGroup "Dense{ComplexF64}") (.fixed "data") (.cplxs l)).node
  | .qreal o l => qNode "BlockSparse{Float64}" o (.reals l)
  | .qcplx o l => qNode "BlockSparse{ComplexF64}" o (.cplxs l)
  | .other => .throw

/-- The blocks in `h5_read(QDense)` (qdense.cc:1052-1068); `old` are the blocks of the object read into, from which an array is made that is not used. -/
def readBlocks (old : List BlOf) (g : Group R C) : Res (List BlOf) :=
  (getLong g (.fixed "ndims")).bind fun N => if N < 0 then .ub
    else (offsetsToArray N.toNat old).bind fun _ => (getLongs g (.fixed "offsets")).bind fun a =>
      .ok (arrayToOffsets N.toNat (a.length / (N.toNat + 1)) a)

/-- The storage in `h5_read(ITensor)` (itensor.cc:834-846) -/
def readSto (g : Group R C) (k : Key) : Res (Sto R C) :=
  (openGroup g k).bind fun g => (getAttr g "type").bind fun t =>
    if t = "Dense{Float64}" then (getReals g (.fixed "data")).bind fun l => .ok (.real l)
    else if t = "Dense{ComplexF64}" then (getCplxs g (.fixed "data")).bind fun l => .ok (.cplx l)
    else if t = "BlockSparse{Float64}" then (readBlocks [] g).bind fun o => (getReals g (.fixed "data")).bind fun l => .ok (.qreal o l)
    else if t = "BlockSparse{ComplexF64}" then (readBlocks [] g).bind fun o => (getCplxs g (.fixed "data")).bind fun l => .ok (.qcplx o l)
    else .throw

/-- `h5_write(ITensor)` (itensor.cc:815-823). A tensor which is not allocated has no storage to do the task on, which is an error. -/
def tenNode (T : Ten R C) : Res (Node R C) :=
  match T.sto with
  | none => .throw
  | some s => (stoNode s).bind fun x => .ok (put (put (newGroup "ITensor") (.fixed "inds") (indsNode T.is)) (.fixed "storage") x).node

/-- Does a group have the member? (`has_subgroup`, group.cc:40-47) -/
def has (g : Group R C) (k : Key) : Bool := (g.subs.find? (fun p => p.1 = k)).isSome

/-- `h5_read(ITensor)` (itensor.cc:825-849) -/
def readTen (g : Group R C) (k : Key) : Res (Ten R C) :=
  (openGroup g k).bind fun g => (checkType g "ITensor").bind fun _ => (readInds g (.fixed "inds")).bind fun is =>
    (if has g (.fixed "storage") then readSto g (.fixed "storage") else if has g (.fixed "store") then readSto g (.fixed "store") else .throw).bind fun s =>
      .ok ⟨is, some s⟩

/-- A matrix product state or operator: its tensors, those at positions 0 and N+1, and the limits (mps.h:90-105). -/
structure Train (R C : Type) where
  sites : List (Ten R C)
  first : Option (Ten R C)
  last : Option (Ten R C)
  llim : Int
  rlim : Int

/-- The nodes of the tensors. -/
def tenNodes : List (Ten R C) → Res (List (Node R C))
  | [] => .ok []
  | T :: Ts => (tenNode T).bind fun x => (tenNodes Ts).bind fun r => .ok (x :: r)

/-- `h5_write(MPS)` and `h5_write(MPO)` (mps.cc:1778-1791, mpo.cc:967-980); `t` is "MPS" or "MPO". -/
def trainNode (t : String) (M : Train R C) : Res (Node R C) :=
  (tenNodes M.sites).bind fun l => .ok (putAll (t ++ "[%d]") 1 l (put (put (put (newGroup t) (.fixed "length") (.long M.sites.length)) (.fixed "rlim") (.long M.rlim))
    (.fixed "llim") (.long M.llim))).node

/-- `h5_read(MPS)` and `h5_read(MPO)` (mps.cc:1793-1810, mpo.cc:982-999). -/
def readTrain (t : String) (g : Group R C) (k : Key) : Res (Train R C) :=
  (openGroup g k).bind fun g => (checkType g t).bind fun _ => (getLong g (.fixed "length")).bind fun n => (getLong g (.fixed "rlim")).bind fun r =>
    (getLong g (.fixed "llim")).bind fun l => if n < 0 then .throw
      else (readAll (fun m => readTen g (.num (t ++ "[%d]") m)) 1 n.toNat).bind fun A => .ok ⟨A, none, none, l, r⟩

end Verif.Hdf5
