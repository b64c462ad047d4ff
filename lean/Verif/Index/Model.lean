import Verif.TagSet.Props
import Verif.QN.Model

/-!
# Model of `Index` and `IndexSet`

Sources: `/repo/itensor/index.h`, `/repo/itensor/index.cc`, `/repo/itensor/indexset.h`,
`/repo/itensor/indexset.cc`, `/repo/itensor/indexset_impl.h`, `/repo/itensor/tensor/contract.h`
(`computeLabels`), `/repo/itensor/itensor.cc` (`replaceInds`, `swapInds`).
-/

namespace Verif.Index

open Verif.TagSet (Tag TagSet)

/-- `class Index` (index.h:78-94).  `dir` is the Arrow (-1 In, 1 Out, 0 Neither); `qns` is the
contents of the shared `IQIndexDat` (empty list = null pointer, i.e. no QNs). -/
structure Index where
  id : Nat
  dim : Nat
  dir : Int
  tags : TagSet
  qns : List (Verif.QN.QN × Nat)
  deriving DecidableEq, Repr

namespace Index

/-- `operator==` (index.cc:155-159). -/
def eq (i j : Index) : Bool := i.id == j.id && i.tags.eq j.tags

/-- `operator bool` (index.cc:138-139). -/
def nonNull (i : Index) : Bool := i.id != 0

/-- `primeLevel()` (index.h:130-131). -/
def plev (i : Index) : Int := i.tags.plev

/-- `setPrime` (index.cc:103-112), release build. -/
def setPrime (i : Index) (p : Int) : Index := { i with tags := i.tags.setPrime p }

/-- `prime` (index.cc:123-135), release build. -/
def prime (i : Index) (n : Int) : Index := { i with tags := i.tags.prime n }

/-- `dag()` (index.h:226-227) with `operator-(Arrow)` (arrow.h:62-70). -/
def dag (i : Index) : Index := { i with dir := if i.dir = -1 then 1 else -1 }

/-- `removeQNs()` (index.h:269-270). -/
def removeQNs (i : Index) : Index := { i with qns := [] }

/-- `nblock` (index.cc:559-564), `hasQNs` (index.cc:246-247). -/
def nblock (i : Index) : Nat := i.qns.length
def hasQNs (i : Index) : Bool := i.nblock != 0

/-- The `while` loop of `sectorInfo` (index.cc:434-444) on the sector sizes still ahead;
`sector` is the number of the first of them.  Running past the last sector reads
`iq_[nblock]`, which is out of bounds. -/
def sectorLoop : List Nat → Nat → Int → Res (Nat × Int)
  | [], _, _ => .ub
  | m :: ms, sector, sind =>
    if sind > m then sectorLoop ms (sector + 1) (sind - m) else .ok (sector, sind)

/-- `sectorInfo(IndexVal)` (index.cc:434-444): 1-based sector and 1-based position inside. -/
def sectorInfo (i : Index) (val : Int) : Res (Nat × Int) :=
  sectorLoop (i.qns.map (·.2)) 1 val

/-- `IndexVal::qn()` (index.cc:446-451). -/
def valQN (i : Index) (val : Int) : Res Verif.QN.QN :=
  (i.sectorInfo val).bind fun s =>
    match i.qns[s.1 - 1]? with
    | some q => .ok q.1
    | none => .ub

end Index

/-- `IndexSet` (indexset.h): an ordered list of indices. -/
abbrev IndexSet := List Index

namespace IndexSet

/-- `hasIndex` (indexset.cc:413-420). -/
def hasIndex (is : IndexSet) (i : Index) : Bool := is.any (·.eq i)

/-- `hasInds` (indexset.cc:422-429). -/
def hasInds (is m : IndexSet) : Bool := m.all (hasIndex is)

/-- `hasSameInds` (indexset.cc:431-436). -/
def hasSameInds (a b : IndexSet) : Bool := a.length == b.length && hasInds a b

/-- `equals` (indexset.cc:438-447). -/
def equals (a b : IndexSet) : Bool :=
  b.length == a.length && (a.zip b).all fun p => p.1.eq p.2

/-- `indexPosition` (indexset.cc:384-391); `none` is `-1`. -/
def indexPosition (is : IndexSet) (i : Index) : Option Nat := is.findIdx? (·.eq i)

/-- `indexPositions` (indexset.cc:394-409). -/
def indexPositions (is m : IndexSet) : List Nat := m.filterMap (indexPosition is)

/-- `commonInds` (indexset.cc:585-594). -/
def commonInds (a b : IndexSet) : IndexSet := a.filter (hasIndex b)

/-- `unionInds(IndexSet,IndexSet)` (indexset.cc:596-607). -/
def unionInds (a b : IndexSet) : IndexSet := a ++ b.filter fun i => !hasIndex a i

/-- `unionInds(Index,IndexSet)` (indexset.cc:619-629). -/
def consInds (i : Index) (b : IndexSet) : IndexSet := i :: b.filter fun j => !j.eq i

/-- `unionInds(vector<IndexSet>)` (indexset.cc:609-617): plain concatenation. -/
def concatInds (l : List IndexSet) : IndexSet := l.flatten

/-- `uniqueInds` (indexset.cc:643-652). -/
def uniqueInds (a b : IndexSet) : IndexSet := a.filter fun i => !hasIndex b i

/-- `uniqueInds(IndexSet,vector<IndexSet>)` (indexset.cc:654-659). -/
def uniqueIndsL (a : IndexSet) (l : List IndexSet) : IndexSet := uniqueInds a (concatInds l)

/-- `noncommonInds` (indexset.cc:661-666). -/
def noncommonInds (a b : IndexSet) : IndexSet := unionInds (uniqueInds a b) (uniqueInds b a)

/-- `findInds(is,tags)` (indexset.cc:548-557). -/
def findInds (a : IndexSet) (ts : TagSet) : IndexSet := a.filter fun i => i.tags.hasTags ts

/-- `findIndsExcept` (indexset.cc:574-583). -/
def findIndsExcept (a : IndexSet) (ts : TagSet) : IndexSet := a.filter fun i => !i.tags.hasTags ts

/-- Which indices a tag/prime operation applies to: overloads without a match argument, with an
`IndexSet`, and with a `TagSet`. -/
inductive Match where
  | all
  | inds (m : IndexSet)
  | tags (ts : TagSet)

/-- Body shared by the IndexSet prime/tag methods (indexset.cc:88-345): apply `f` to all indices;
or to the positions found by `indexPositions`, one after another; or to those having the tags. -/
def modifyMatch (f : Index → Index) (is : IndexSet) : Match → IndexSet
  | .all => is.map f
  | .inds m => (indexPositions is m).foldl (fun s k => s.modify k f) is
  | .tags ts => is.map fun j => if j.tags.hasTags ts then f j else j

/-- `mapPrime` (indexset.cc:281-313). -/
def mapPrime (old new : Int) (is : IndexSet) (m : Match) : IndexSet :=
  modifyMatch (fun j => if j.plev = old then j.setPrime new else j) is m

/-- `setPrime` (indexset.cc:250-279). -/
def setPrime (p : Int) (is : IndexSet) (m : Match) : IndexSet := modifyMatch (·.setPrime p) is m

/-- `prime` (indexset.cc:315-345). -/
def prime (n : Int) (is : IndexSet) (m : Match) : IndexSet := modifyMatch (·.prime n) is m

/-- The reserved temporary prime level of `swapPrime` (indexset_impl.h:58). -/
def tempPrime : Int := 431543

/-- `swapPrime` (indexset_impl.h:51-75): the last `mapPrime` has no match argument. -/
def swapPrime (p q : Int) (is : IndexSet) (m : Match) : IndexSet :=
  mapPrime tempPrime q (mapPrime q p (mapPrime p tempPrime is m) m) .all

/-- Apply a fallible change to one index's tags. -/
def withTags (f : TagSet → Res TagSet) (j : Index) : Res Index :=
  (f j.tags).bind fun t => .ok { j with tags := t }

/-- Run a fallible map over a list, left to right. -/
def mapM (f : Index → Res Index) : IndexSet → Res IndexSet
  | [] => .ok []
  | j :: js => (f j).bind fun j' => (mapM f js).bind fun js' => .ok (j' :: js')

/-- Apply a fallible change at one position. -/
def modifyAtM (f : Index → Res Index) (is : IndexSet) (k : Nat) : Res IndexSet :=
  match is[k]? with
  | none => .ub
  | some j => (f j).bind fun j' => .ok (is.set k j')

/-- `replaceTags` (indexset.cc:212-248). -/
def replaceTags (a b : TagSet) (is : IndexSet) : Match → Res IndexSet
  | .all => mapM (withTags (·.replaceTags a b)) is
  | .inds m => Res.foldM (modifyAtM (withTags (·.replaceTags a b))) is (indexPositions is m)
  | .tags ts => mapM (fun j => if j.tags.hasTags ts then withTags (·.replaceTags a b) j else .ok j) is

/-- The temporary tag `"df4sd32"` (indexset_impl.h:31). -/
def tempTag : Tag := Tag.ofBytes [100, 102, 52, 115, 100, 51, 50]

/-- `TagSet("df4sd32")` and `TagSet("df4sd32,431543")` (indexset_impl.h:31,36). -/
def tempTags (withPrime : Bool) : TagSet :=
  ⟨[tempTag, Tag.empty, Tag.empty, Tag.empty], if withPrime then 431543 else -1, 1⟩

/-- `swapTags` (indexset_impl.h:21-49). -/
def swapTags (a b : TagSet) (is : IndexSet) (m : Match) : Res IndexSet :=
  if a.plev < 0 ∧ b.plev ≥ 0 then .throw
  else if ¬ a.plev < 0 ∧ b.plev < 0 then .throw
  else
    let t := tempTags (decide (a.plev ≥ 0))
    (replaceTags a t is m).bind fun is1 =>
    (replaceTags b a is1 m).bind fun is2 =>
    replaceTags t b is2 .all

/-! ### Contraction labels -/

/-- First loop of `computeLabels` (contract.h:175-188).  `Lind[i]` is written only in iteration
`i`, so it is produced in order; `Rind` is an array written at arbitrary positions. -/
def contLoop (R : IndexSet) : IndexSet → List Int → Nat → List Int × List Int × Nat
  | [], Rind, n => ([], Rind, n)
  | l :: L, Rind, n =>
    match R.findIdx? (l.eq ·) with
    | none => let r := contLoop R L Rind n; (0 :: r.1, r.2)
    | some j =>
      let r := contLoop R L (Rind.set j (-(1 + (n : Int)))) (n + 1)
      (-(1 + (n : Int)) :: r.1, r.2)

/-- Second loop (contract.h:192-200): zeros get the numbers `uu+1, uu+2, ...`. -/
def fillLoop : List Int → Nat → List Int × Nat
  | [], u => ([], u)
  | x :: xs, u =>
    if x = 0 then let r := fillLoop xs (u + 1); (((u + 1 : Nat) : Int) :: r.1, r.2)
    else let r := fillLoop xs u; (x :: r.1, r.2)

/-- `computeLabels` (contract.h:155-202): `(Lind, Rind, ncont)`. -/
def computeLabels (L R : IndexSet) : List Int × List Int × Nat :=
  let c := contLoop R L (List.replicate R.length 0) 0
  let l := fillLoop c.1 c.2.2
  let r := fillLoop c.2.1 l.2
  (l.1, r.1, c.2.2)

/-- `hasQNs(IndexSet)` (indexset.cc:529-534). -/
def hasQNs (is : IndexSet) : Bool := is.any (·.hasQNs)

/-- `contractIS` (indexset_impl.h:77-127) with `sortResult = false`, the value every caller uses
(dense.cc:284, diag.cc:164, qdiag.cc:522): the uncontracted indices of `L`, then of `R`, paired
with their labels. -/
def contractIS (L R : IndexSet) (Lind Rind : List Int) : List (Index × Int) :=
  let lq := hasQNs L
  let rq := hasQNs R
  let fl (i : Index) := if lq && !rq then i.removeQNs else i
  let fr (i : Index) := if !lq && rq then i.removeQNs else i
  ((L.zip Lind).filter (·.2 > 0)).map (fun p => (fl p.1, p.2)) ++
    ((R.zip Rind).filter (·.2 > 0)).map (fun p => (fr p.1, p.2))

/-- Indices of a product: `contractIS(Lis,Ris,Nis)` (indexset.cc:505-516). -/
def prodInds (L R : IndexSet) : List (Index × Int) :=
  let c := computeLabels L R
  contractIS L R c.1 c.2.1

/-! ### replaceInds -/

/-- Indices of `T * delta(J,Jnew)` (diag.cc:142-167, 128-140; contractISReplaceIndex,
indexset_impl.h:129-152).  When exactly one of the two delta indices is shared, the shared one is
replaced in place and the data are untouched; otherwise the general rule applies. -/
def mulDelta (T : IndexSet) (J K : Index) : IndexSet :=
  let c := computeLabels T [J, K]
  let l0 : Int := c.2.1.getD 0 0
  let l1 : Int := c.2.1.getD 1 0
  if J.dim = K.dim ∧ (decide (l0 < 0) != decide (l1 < 0)) then
    (T.zip c.1).map fun p => if p.2 < 0 then (if l0 ≥ 0 then J else K) else p.1
  else (contractIS T [J, K] c.1 c.2.1).map (·.1)

/-- `plev_temp` (itensor.cc:691). -/
def replTemp : Int := 43218432

/-- Inner loop of `replaceInds` (itensor.cc:696-713) for one index `J` of the original tensor:
the first position `i` with `is1[i]` non-null and equal to `J`.  Result: new tensor indices and
new `is2p` (whose arrow at `i` may have been flipped). -/
def replOne (is1 is2 : IndexSet) (s : IndexSet × IndexSet) (J : Index) :
    Res (IndexSet × IndexSet) :=
  match is1.findIdx? (fun x => x.nonNull && J.eq x) with
  | none => .ok s
  | some i =>
    match is2[i]?, s.2[i]? with
    | some n, some np =>
      if J.dim ≠ n.dim then .throw
      else
        let Jd := J.dag
        let np' := if Jd.dir = np.dir then np.dag else np
        .ok (mulDelta s.1 Jd np', s.2.set i np')
    | _, _ => .ub

/-- `replaceInds` (itensor.cc:681-721), index part.  Release build: unequal lengths of `is1` and
`is2` are not checked, an access past the end of `is2` is UB. -/
def replaceInds (T is1 is2 : IndexSet) : Res IndexSet :=
  (Res.foldM (replOne is1 is2) (T, is2.map (·.prime replTemp)) T).bind fun s =>
    .ok (prime (-replTemp) s.1 (.inds s.2))

/-- `swapInds` (itensor.cc:732-742). -/
def swapInds (T is1 is2 : IndexSet) : Res IndexSet := replaceInds T (is1 ++ is2) (is2 ++ is1)

end IndexSet
end Verif.Index
