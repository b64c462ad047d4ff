import Mathlib.Algebra.Ring.Defs
import Mathlib.Data.Char
import Mathlib.Data.List.Lex
import Verif.Base

/-!
# Model of the terms of an `AutoMPO`

Sources: `/repo/itensor/mps/autompo.h`, `/repo/itensor/mps/autompo.cc`.

Coefficients are from a commutative ring in place of `Cplx`. The name of an operator is its list of characters. A
`std::set` is the list of its elements in order. `Error` in the destructor of `Accumulator`, which ends the program, is
the outcome `throw`.
-/

namespace Verif.AutoMPO

/-- `std::string`. -/
abbrev Name := List Char

/-- `SiteTerm` (autompo.h:55-84). -/
structure SiteTerm where
  op : Name
  i : Int
  deriving DecidableEq, Repr

/-- `SiteTerm::operator<` (autompo.h:71-76). -/
def SiteTerm.less (a b : SiteTerm) : Bool := if a.i ≠ b.i then a.i < b.i else a.op < b.op

/-- `isFermionic(SiteTerm)` (autompo.cc:86-99), without the check of DEBUG builds. -/
def fermiName (s : Name) : Bool := s.head? = some 'C'

/-- `isFermionic(SiteTermProd)` (autompo.cc:109-119). -/
def fermiProd : List SiteTerm → Bool
  | [] => false
  | t :: ts => if fermiName t.op then !fermiProd ts else fermiProd ts

/-- `HTerm` (autompo.h:91-133). -/
structure HTerm (K : Type*) where
  coef : K
  ops : List SiteTerm
  deriving DecidableEq, Repr

variable {K : Type*} [CommRing K]

/-- `HTerm()` (autompo.h:96). -/
def HTerm.new : HTerm K := ⟨1, []⟩

/-- The operators which the iterator of `HTerm::add` passes (autompo.cc:191-192). -/
def leftOps (i : Int) (ops : List SiteTerm) : List SiteTerm := ops.takeWhile fun t => t.i ≤ i

/-- The operators from the iterator of `HTerm::add` to the end (autompo.cc:191-192). -/
def rightOps (i : Int) (ops : List SiteTerm) : List SiteTerm := ops.dropWhile fun t => t.i ≤ i

/-- `HTerm::add` (autompo.cc:184-206). -/
def HTerm.add (t : HTerm K) (op : Name) (i : Int) (x : K) : HTerm K :=
  let c := if rightOps i t.ops ≠ [] ∧ fermiName op then
      if fermiProd (rightOps i t.ops) then t.coef * -1 else t.coef
    else t.coef
  ⟨c * x, leftOps i t.ops ++ ⟨op, i⟩ :: rightOps i t.ops⟩

/-- `HTerm::operator*=` (autompo.cc:208-222). -/
def HTerm.scale (t : HTerm K) (x : K) : Res (HTerm K) := if t.ops.length = 0 then .throw else .ok ⟨t.coef * x, t.ops⟩

/-- The loop of `LessNoCoef` over the operators of two terms with equally many (autompo.cc:251-255). -/
def lessOps : List SiteTerm → List SiteTerm → Bool
  | a :: as, b :: bs => if a ≠ b then a.less b else lessOps as bs
  | _, _ => false

/-- `LessNoCoef` (autompo.cc:246-256). -/
def lessNoCoef (a b : HTerm K) : Bool :=
  if a.ops.length ≠ b.ops.length then a.ops.length < b.ops.length else lessOps a.ops b.ops

/-- `std::set::find`. -/
def find (s : List (HTerm K)) (t : HTerm K) : Option (HTerm K) := s.find? fun u => !lessNoCoef u t && !lessNoCoef t u

/-- `std::set::insert`. -/
def insert (t : HTerm K) : List (HTerm K) → List (HTerm K)
  | [] => [t]
  | u :: s => if lessNoCoef t u then t :: u :: s else if lessNoCoef u t then u :: insert t s else u :: s

/-- `std::set::erase` of the element which `find` found. -/
def erase (s : List (HTerm K)) (t : HTerm K) : List (HTerm K) := s.eraseP fun u => !lessNoCoef u t && !lessNoCoef t u

/-- `AutoMPO::add` (autompo.cc:373-390). -/
def add [DecidableEq K] (s : List (HTerm K)) (t : HTerm K) : List (HTerm K) :=
  if t.coef = 0 then s
  else match find s t with
    | none => insert t s
    | some u => insert ⟨t.coef + u.coef, t.ops⟩ (erase s t)

/-- What is passed to `operator+=` and `operator,` of an `AutoMPO`: a `Real` or `Cplx`, an `int`, or a string. -/
inductive Item (K : Type*)
  | num (z : K)
  | int (i : Int)
  | str (s : Name)
  deriving DecidableEq

/-- `AutoMPO::Accumulator` (autompo.h:151-190); `op = some s` when `state` is `Op`. -/
structure Acc (K : Type*) where
  op : Option Name
  coef : K
  term : HTerm K

/-- `AutoMPO::operator+=` and the constructors of `Accumulator` (autompo.h:209-211, autompo.cc:258-301). -/
def Acc.start : Item K → Acc K
  | .num z => ⟨none, z, .new⟩
  | .int i => ⟨none, (i : K), .new⟩
  | .str s => ⟨some s, 1, .new⟩

/-- `Accumulator::operator,` (autompo.cc:313-371). -/
def Acc.step (a : Acc K) : Item K → Res (Acc K)
  | .num z => .ok { a with coef := a.coef * z }
  | .int i => match a.op with
    | some s => .ok ⟨none, a.coef, a.term.add s i 1⟩
    | none => .ok { a with coef := a.coef * (i : K) }
  | .str s => match a.op with
    | some _ => .throw
    | none => .ok { a with op := some s }

/-- `~Accumulator` (autompo.cc:304-310), up to the call of `AutoMPO::add`. -/
def Acc.finish (a : Acc K) : Res (HTerm K) := if a.op.isSome then .throw else a.term.scale a.coef

/-- The statement `ampo += x, y, …;`. -/
def statement [DecidableEq K] (s : List (HTerm K)) (x : Item K) (ys : List (Item K)) : Res (List (HTerm K)) :=
  (Res.foldM Acc.step (Acc.start x) ys).bind fun a => a.finish.bind fun t => .ok (add s t)

end Verif.AutoMPO
