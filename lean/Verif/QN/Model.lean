import Verif.TagSet.Lemmas

/-!
# Model of `QNum` and `QN`

Sources: `/repo/itensor/qn.h`, `/repo/itensor/qn.cc`.  `int` is modelled by `Int` (no overflow).
A `std::array<QNum,4>` is a list of length 4.
-/

namespace Verif.QN

/-- `QNName` is `SmallString` (qn.h:34). -/
abbrev Name := Verif.TagSet.Tag

/-- `struct QNum` (qn.h:48-92). -/
structure QNum where
  name : Name
  val : Int
  mod : Int
  deriving DecidableEq, Repr

/-- `QNum()` (qn.h:53-57): empty name, value 0, mod 0 (inactive). -/
def QNum.none : QNum := ⟨Verif.TagSet.Tag.empty, 0, 0⟩

/-- The value stored by `QNum::set(v)` for modulus `mod` (qn.cc:10-30).  `Int.tmod` is the C++ `%`. -/
def setVal (mod v : Int) : Int :=
  let m : Int := mod.natAbs
  if m > 1 then (m * v.natAbs + v).tmod m else v

/-- `QNum(name,v,m)` (qn.h:66). -/
def QNum.make (name : Name) (v m : Int) : QNum := ⟨name, setVal m v, m⟩

/-- `isActive` (qn.h:187-188). -/
def QNum.active (q : QNum) : Bool := q.mod != 0

/-- `operator+=(QNum&,QNum)` (qn.cc:50-56).  The name/mod check is DEBUG only. -/
def QNum.add (a b : QNum) : QNum := { a with val := setVal a.mod (a.val + b.val) }

/-- Unary minus (qn.h:88-89). -/
def QNum.neg (a : QNum) : QNum := QNum.make a.name (-a.val) a.mod

/-- `operator*=(QNum&,Arrow)` (qn.cc:66-71), `dir` = -1, 1 or 0. -/
def QNum.scale (a : QNum) (dir : Int) : QNum := { a with val := setVal a.mod (a.val * dir) }

/-- `class QN` (qn.h:98-107): array of `QNSize() = 4` slots. -/
abbrev QN := List QNum

abbrev qnSize : Nat := 4

/-- `QN()` (qn.h:109). -/
def QN.default : QN := List.replicate qnSize QNum.none

/-- Loop of `addNum` (qn.cc:205-231) at hole position `n`. -/
def addNumLoop (qv : QNum) : Nat → QN → Res QN
  | 0, a => .ok (a.set 0 qv)
  | n + 1, a =>
    let x := a.getD n QNum.none
    if x.active then
      if x.name = qv.name then .throw
      else if x.name.lt qv.name then .ok (a.set (n + 1) qv)
      else addNumLoop qv n (a.set (n + 1) x)
    else addNumLoop qv n a

/-- `QN::addNum` (qn.cc:200-232). -/
def QN.addNum (q : QN) (qv : QNum) : Res QN :=
  if (q.getD (qnSize - 1) QNum.none).active then .throw
  else addNumLoop qv (qnSize - 1) q

/-- `QN(QNum,QNum,QNum,QNum)` (qn.h:114-127). -/
def QN.make (v0 v1 v2 v3 : QNum) : Res QN :=
  (QN.addNum QN.default v0).bind fun q =>
  if !v1.active then .ok q else (q.addNum v1).bind fun q =>
  if !v2.active then .ok q else (q.addNum v2).bind fun q =>
  if !v3.active then .ok q else q.addNum v3

/-- `QN::val(name)` (qn.cc:234-242): first slot with that name, else 0. -/
def QN.val (q : QN) (n : Name) : Int :=
  match q.find? (·.name == n) with
  | some v => v.val
  | Option.none => 0

/-- One half of `operator==` (qn.cc:300-313). -/
def QN.covers (qa qb : QN) : Bool :=
  qb.all fun bv =>
    bv.val == 0 ||
    match qa.find? (·.name == bv.name) with
    | some av => av.val == bv.val
    | Option.none => false

/-- `operator==(QN,QN)` (qn.cc:297-329). -/
def QN.eq (qa qb : QN) : Bool := qa.covers qb && qb.covers qa

/-- Loop of `operator<` (qn.cc:331-392); the arguments are the slots from positions `a` and `b`
on.  The loop ends when either runs past its array or both are inactive. -/
def ltLoop : QN → QN → Bool
  | [], _ => false
  | _ :: _, [] => false
  | x :: xs, y :: ys =>
    if !(x.active || y.active) then false
    else if !x.active then
      if y.val = 0 then ltLoop (x :: xs) ys else decide (0 < y.val)
    else if !y.active then
      if x.val = 0 then ltLoop xs (y :: ys) else decide (x.val < 0)
    else if x.name.lt y.name then
      if x.val = 0 then ltLoop xs (y :: ys) else decide (x.val < 0)
    else if y.name.lt x.name then
      if y.val = 0 then ltLoop (x :: xs) ys else decide (0 < y.val)
    else
      if x.val = y.val then ltLoop xs ys else decide (x.val < y.val)
termination_by a b => a.length + b.length

/-- `operator<(QN,QN)` (qn.cc:331-392). -/
def QN.lt (qa qb : QN) : Bool := ltLoop qa qb

/-- Unary minus (qn.cc:394-402). -/
def QN.neg (q : QN) : QN := q.map QNum.neg

/-- The guard `n==0 || bv.name() > avs[n-1].name()` (qn.cc:432). -/
def prevLt : Option Name → Name → Bool
  | Option.none, _ => true
  | some p, n => p.lt n

/-- Inner loop of `combineQN` (qn.cc:418-444) for one `bv`; `prev` is the name in slot `n-1`.
Inserting shifts the remaining slots right by one; the last slot falls off the array.  Reaching
the end of the array without a match leaves it unchanged. -/
def insertNum (bv : QNum) : Option Name → QN → QN
  | _, [] => []
  | prev, av :: rest =>
    if !av.active then bv :: rest
    else if av.name = bv.name then av.add bv :: rest
    else if bv.name.lt av.name && prevLt prev bv.name then
      bv :: (av :: rest).dropLast
    else av :: insertNum bv (some av.name) rest

/-- `combineQN` with `+=` (qn.cc:407-457): stops at the first inactive slot of `qb`. -/
def QN.add (qa : QN) : QN → QN
  | [] => qa
  | bv :: rest => if !bv.active then qa else QN.add (insertNum bv Option.none qa) rest

/-- `operator-=` (qn.cc:459-464). -/
def QN.sub (qa qb : QN) : QN := qa.add qb.neg

/-- `operator*=(QN&,Arrow)` (qn.cc:466-474). -/
def QN.scale (q : QN) (dir : Int) : QN := q.map (·.scale dir)

/-- Binary `write`/`read` (qn.cc:87-105, 498-508): each slot's name, value, mod; `read` rebuilds
each slot with the `QNum(name,v,m)` constructor. -/
def QN.write (q : QN) : List (Name × Int × Int) := q.map fun v => (v.name, v.val, v.mod)
def QN.read (w : List (Name × Int × Int)) : QN := w.map fun t => QNum.make t.1 t.2.1 t.2.2

/-- HDF5 `h5_write` stores the same columns (qn.cc:512-530); `h5_read` (qn.cc:532-546) calls
`addNum` for all four, active or not. -/
def QN.h5read (w : List (Name × Int × Int)) : Res QN :=
  Res.foldM QN.addNum QN.default (w.map fun t => QNum.make t.1 t.2.1 t.2.2)

end Verif.QN
