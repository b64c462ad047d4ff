import Verif.Tensor.Transform
import Verif.Tensor.Gemm

/-!
# Dense contraction: `CProps` and `contract` (`/repo/itensor/tensor/contract.cc`)

Labels are integers.  Element values are elements of a commutative ring, all of one type (mixes of
real and complex are the subject of `C20`).  `size_t`/`int` quantities are natural numbers.
Out-of-range accesses are `ub`.  The parts of one C++ loop that accumulate independent quantities
are written as separate recursions.
-/

namespace Verif.Tensor

open Range Permutation

/-- `find_index(v,t)` (contract.h:101-128): position of the first equal
element, or -1. -/
def findIndex (l : List Int) (x : Int) : Int :=
  match l.findIdx? (· == x) with
  | some k => k
  | none => -1

/-- Data of `CProps` (contract.cc:137-167) that `contract` uses, after `compute`. -/
structure CProps where
  AtoC : List Int
  BtoC : List Int
  permuteA : Bool
  permuteB : Bool
  permuteC : Bool
  dleft : Nat
  dmid : Nat
  dright : Nat
  PA : Permutation
  PB : Permutation
  PC : Permutation
  ctrans : Bool
  newArange : Range
  newBrange : Range
  newCrange : Range

namespace CProps

/-- Result of the first double loop of `computePerms` (contract.cc:563-574). -/
structure ABInfo where
  AtoB : List Int
  ncont : Nat
  Acstart : Nat
  Bcstart : Nat

/-- First double loop of `computePerms` (contract.cc:563-574), from position `i` of `ai`. -/
def abLoop (bi : List Int) : List Int → Nat → ABInfo → ABInfo
  | [], _, s => s
  | a :: as, i, s =>
    let j := findIndex bi a
    abLoop bi as (i + 1) <|
      if j < 0 then { s with AtoB := s.AtoB ++ [-1] }
      else ⟨s.AtoB ++ [j], s.ncont + 1, if i < s.Acstart then i else s.Acstart,
        if j.toNat < s.Bcstart then j.toNat else s.Bcstart⟩

/-- Second and third double loops of `computePerms` (contract.cc:576-596): `AtoC_` (or `BtoC_`). -/
def toC (ci xi : List Int) : List Int := xi.map (findIndex ci)

/-- `Austart` (or `Bustart`) as set by the same loops: first position with a match in `C`, from
position `i`; `u` is its current value. -/
def ustartLoop : List Int → Nat → Nat → Nat
  | [], _, u => u
  | k :: ks, i, u => ustartLoop ks (i + 1) (if k < 0 then u else if i < u then i else u)

/-- `contractedA(i)` (contract.cc:185-188): `AtoC_[i] < 0`. -/
def contracted (XtoC : List Int) (i : Nat) : Res Bool :=
  match XtoC[i]? with
  | some k => .ok (decide (k < 0))
  | none => .ub

/-- Extent accumulation in `compute` (contract.cc:273-283): product of the extents of the uncontracted
(`dleft`, `dright`) positions. -/
def dimUnc : List Int → List Nat → Nat → Nat
  | k :: ks, d :: ds, p => dimUnc ks ds (if k < 0 then p else p * d)
  | _, _, p => p

/-- Product of the extents of the contracted positions (`dmid`, contract.cc:280-283). -/
def dimCon : List Int → List Nat → Nat → Nat
  | k :: ks, d :: ds, p => dimCon ks ds (if k < 0 then p * d else p)
  | _, _, p => p

/-- `PC.setFromTo(c,XtoC(i)); ++c` over the uncontracted positions (contract.cc:273-290 and
482-494). -/
def pcLoop : List Int → Nat → Permutation → Res (Nat × Permutation)
  | [], c, P => .ok (c, P)
  | k :: ks, c, P =>
    if k < 0 then pcLoop ks c P else (setFromTo P c k.toNat).bind fun P => pcLoop ks (c + 1) P

/-- `PC` from `AtoC_` and `BtoC_` (contract.cc:272-290 and 482-494). -/
def calcPC (AtoC BtoC : List Int) (P : Permutation) : Res Permutation :=
  (pcLoop AtoC 0 P).bind fun q => (pcLoop BtoC q.1 q.2).map (·.2)

/-- Loop of `checkACsameord` (contract.cc:215-221). -/
def sameLoop : List Int → Int → Bool
  | [], _ => true
  | k :: ks, c => if k < 0 then sameLoop ks c else if k ≠ c then false else sameLoop ks (c + 1)

/-- `checkACsameord`, `checkBCsameord` (contract.cc:208-238). -/
def sameord (XtoC : List Int) (ustart : Nat) : Bool :=
  match XtoC[ustart]? with
  | none => true
  | some c => sameLoop XtoC c

/-- "check if contiguous" loop (contract.cc:315-321, 334-340): `true` when a position among the `n`
from `p` on is not contracted. -/
def contigLoop (XtoC : List Int) : Nat → Nat → Res Bool
  | 0, _ => .ok false
  | n + 1, p => (contracted XtoC p).bind fun c => if !c then .ok true else contigLoop XtoC n (p + 1)

/-- Decision whether `A` (or `B`) must be permuted (contract.cc:304-322, 324-341). -/
def needPerm (XtoC : List Int) (ncont cstart : Nat) : Res Bool :=
  (contracted XtoC 0).bind fun c0 =>
    (if c0 then .ok true else contracted XtoC (XtoC.length - 1)).bind fun c =>
      if !c then .ok true else contigLoop XtoC ncont cstart

/-- Same-order loop (contract.cc:346-355): `true` when some contracted index of `A` does not have the
expected position in `B`. -/
def orderLoop (AtoB : List Int) : Nat → Nat → Nat → Res Bool
  | 0, _, _ => .ok false
  | n + 1, p, q =>
    match AtoB[p]? with
    | none => .ub
    | some j => if j ≠ (q : Int) then .ok true else orderLoop AtoB n (p + 1) (q + 1)

/-- `while(!contractedX(p)) ++p;` (contract.cc:389, 435, 446). -/
def nextCon (XtoC : List Int) (p : Nat) : Res Nat :=
  match (XtoC.drop p).findIdx? (· < 0) with
  | some k => .ok (p + k)
  | none => .ub

/-- `P.setFromTo(j,n)` with a possibly negative `j` from `find_index`. -/
def setFromToI (P : Permutation) (j : Int) (n : Nat) : Res Permutation :=
  if j < 0 then .ub else setFromTo P j.toNat n

/-- Loop placing the contracted indices of `x` first, in the order of `y` (contract.cc:385-393 with
`x = A`, `y = B`; 443-450 with `x = B`, `y = A`): `n` indices to go, `p` position on `y`. -/
def frontLoop (YtoC yi xi : List Int) : Nat → Nat → Nat → Permutation → Res Permutation
  | 0, _, _, P => .ok P
  | n + 1, p, newi, P => (nextCon YtoC p).bind fun p =>
    match yi[p]? with
    | none => .ub
    | some l => (setFromToI P (findIndex xi l) newi).bind fun P =>
        frontLoop YtoC yi xi n (p + 1) (newi + 1) P

/-- Loop placing the contracted indices of `B` first, in their own order (contract.cc:433-437). -/
def frontOwn (XtoC : List Int) : Nat → Nat → Nat → Permutation → Res Permutation
  | 0, _, _, P => .ok P
  | n + 1, p, newi, P => (nextCon XtoC p).bind fun p =>
    (setFromTo P p newi).bind fun P => frontOwn XtoC n (p + 1) (newi + 1) P

/-- Loop placing the uncontracted indices of `x` in the order of `C` (contract.cc:398-408, 456-466):
`ci` from position `k`, next free position `newi`; `XtoC_[newi]` outside the array is undefined. -/
def uncLoop (xi : List Int) : List Int → Nat → Nat → List Int → Permutation →
    Res (List Int × Permutation)
  | [], _, _, XC, P => .ok (XC, P)
  | l :: ci, k, newi, XC, P =>
    let j := findIndex xi l
    (if j = -1 then Res.ok (newi, XC, P)
      else if newi < XC.length then
        (setFromToI P j newi).map fun P => (newi + 1, XC.set newi (k : Int), P)
      else .ub).bind fun s =>
    if s.1 = xi.length then .ok (s.2.1, s.2.2) else uncLoop xi ci (k + 1) s.1 s.2.1 s.2.2

/-- Extents of the uncontracted positions, in order (the `nextIndex` calls, contract.cc:522-545). -/
def uncExtents : List Int → List Nat → List Nat
  | k :: ks, d :: ds => if k < 0 then uncExtents ks ds else d :: uncExtents ks ds
  | _, _ => []

/-- Whether permuting both `A` and `B` costs less than permuting `C` (contract.cc:359-370). The costs
are exact here (`Real` arithmetic in the code). -/
def permuteBoth (permuteC pA pB : Bool) (dleft dmid dright : Nat) : Bool :=
  let pCcost := (dleft * dright) ^ 2
  let extra := (if pA then 0 else (dleft * dmid) ^ 2) + (if pB then 0 else (dmid * dright) ^ 2)
  permuteC && !(pA && pB) && decide (extra < pCcost)

/-- `compute` up to the decision of what to permute (contract.cc:263-376): the flags `permuteA_` and
`permuteB_`, and the first `PC`, `permuteC_`, `ctrans`. -/
def decideFlags (AtoC BtoC : List Int) (s : ABInfo) (Austart Bustart rc dleft dmid dright : Nat) :
    Res ((Bool × Bool) × (Permutation × Bool × Bool)) :=
  (calcPC AtoC BtoC (ident rc)).bind fun PC =>
  let same := sameord BtoC Bustart && sameord AtoC Austart
  let permuteC := !isTrivial PC && !same
  let ctrans := !isTrivial PC && same
  (needPerm AtoC s.ncont s.Acstart).bind fun pA =>
  (needPerm BtoC s.ncont s.Bcstart).bind fun pB =>
  (if !pA && !pB then orderLoop s.AtoB s.ncont s.Acstart s.Bcstart else .ok false).bind fun diff =>
  let pA1 := pA || (diff && decide (dleft < dright))
  let pB1 := pB || (diff && !decide (dleft < dright))
  if permuteBoth permuteC pA1 pB1 dleft dmid dright then
    .ok ((true, true), (PC, false, ctrans))
  else .ok ((pA1, pB1), (PC, permuteC, ctrans))

/-- First position satisfying `p` (contract.cc:411-419, 467-475), or the length. -/
def firstPos (XtoC : List Int) (p : Int → Bool) : Nat := XtoC.findIdx p

/-- `compute` (contract.cc:240-548) for ranges with extents `da`, `db`. -/
def compute (ai bi ci : List Int) (Ra Rb : Range) : Res CProps :=
  let s := abLoop bi ai 0 ⟨[], 0, ai.length, bi.length⟩
  let AtoC := toC ci ai
  let BtoC := toC ci bi
  let Austart := ustartLoop AtoC 0 ai.length
  let Bustart := ustartLoop BtoC 0 bi.length
  let dleft := dimUnc AtoC Ra.extents 1
  let dmid := dimCon AtoC Ra.extents 1
  let dright := dimUnc BtoC Rb.extents 1
  (decideFlags AtoC BtoC s Austart Bustart ci.length dleft dmid dright).bind fun fl =>
  let permuteA := fl.1.1
  let permuteB := fl.1.2
  -- contract.cc:380-421
  (if permuteA then
      (frontLoop BtoC bi ai s.ncont s.Bcstart 0 (ident ai.length)).bind fun PA =>
      (uncLoop ai ci 0 s.ncont (List.replicate ai.length (-1)) PA).bind fun q =>
      (permuteExtents Ra q.2).map fun R => (q.1, q.2, R, firstPos q.1 (fun k => decide (0 ≤ k)))
    else .ok (AtoC, [], [], Austart)).bind fun a =>
  -- contract.cc:423-477
  (if permuteB then
      (if permuteA then frontOwn BtoC s.ncont s.Bcstart 0 (ident bi.length)
        else frontLoop AtoC ai bi s.ncont s.Acstart 0 (ident bi.length)).bind fun PB =>
      (uncLoop bi ci 0 s.ncont (List.replicate bi.length (-1)) PB).bind fun q =>
      (permuteExtents Rb q.2).map fun R => (q.1, q.2, R, firstPos q.1 (fun k => decide (0 ≤ k)))
    else .ok (BtoC, [], [], Bustart)).bind fun b =>
  -- contract.cc:479-513
  (if permuteA || permuteB then
      (calcPC a.1 b.1 fl.2.1).map fun PC =>
        let same := sameord b.1 b.2.2.2 && sameord a.1 a.2.2.2
        (PC, !isTrivial PC && !same, !isTrivial PC && same)
    else .ok fl.2).map fun c =>
  -- contract.cc:519-547
  { AtoC := a.1, BtoC := b.1, permuteA, permuteB, permuteC := c.2.1, dleft, dmid, dright,
    PA := a.2.1, PB := b.2.1, PC := c.1, ctrans := c.2.2, newArange := a.2.2.1,
    newBrange := b.2.2.1,
    newCrange := Range.init (uncExtents a.1 (if permuteA then Range.extents a.2.2.1 else Ra.extents)
      ++ uncExtents b.1 (if permuteB then Range.extents b.2.2.1 else Rb.extents)) }

end CProps

/-- Outcome of a computation with loops bounded by `fuel` (`none`: still running). -/
abbrev Run (α : Type*) := Option (Res α)

def Run.bind {α β} (x : Run α) (f : α → Run β) : Run β :=
  match x with
  | none => none
  | some (.ok a) => f a
  | some .throw => some .throw
  | some .ub => some .ub

section
variable {K : Type*} [CommRing K] [DecidableEq K]

/-- `to &= from` / `transform(from,to,op)` on memories (ten_impl.h:107-160). -/
def runTransform {α β} (fuel : Nat) (op : α → β → β) (src dst : Range) (mf : Int → α) (mt : Int → β) :
    Run (Int → β) :=
  match transformPairs fuel src dst with
  | none => none
  | some r => some (r.map fun l => applyPairs op mf l mt)

/-- `tref &= permute(A,P)` into a fresh buffer with range `R'` (contract.cc:759-760, 779-780). -/
def permCopy (fuel : Nat) (R : Range) (P : Permutation) (R' : Range) (m junk : Int → K) :
    Run (Int → K) :=
  match permuteRange R P with
  | .ok V => runTransform fuel (fun b _ => b) V R' m junk
  | .throw => some .throw
  | .ub => some .ub

/-- First part of `contract(p,A,B,C,alpha,beta)`: the matrix reference made from `A`
(contract.cc:755-772); `Atrans()` is contract.cc:201. -/
def matA (fuel : Nat) (p : CProps) (Ra : Range) (A junk : Int → K) : Run (MatRange × (Int → K)) :=
  if p.permuteA then (permCopy fuel Ra p.PA p.newArange A junk).bind fun m =>
      some (.ok ((MatRange.mk2 p.dmid p.dleft).transpose, m))
  else match CProps.contracted p.AtoC 0 with
    | .ok true => some (.ok ((MatRange.mk2 p.dmid p.dleft).transpose, A))
    | .ok false => some (.ok (MatRange.mk2 p.dleft p.dmid, A))
    | _ => some .ub

/-- Second part: the matrix reference made from `B` (contract.cc:774-792); `Btrans()` is
contract.cc:204. -/
def matB (fuel : Nat) (p : CProps) (Rb : Range) (B junk : Int → K) : Run (MatRange × (Int → K)) :=
  if p.permuteB then (permCopy fuel Rb p.PB p.newBrange B junk).bind fun m =>
      some (.ok (MatRange.mk2 p.dmid p.dright, m))
  else match CProps.contracted p.BtoC 0 with
    | .ok false => some (.ok ((MatRange.mk2 p.dright p.dmid).transpose, B))
    | .ok true => some (.ok (MatRange.mk2 p.dmid p.dright, B))
    | _ => some .ub

/-- `contract(p,A,B,C,alpha,beta)` (contract.cc:733-824). `Ra`, `Rb`, `Rc` are the ranges of the
tensor references, `A`, `B`, `C` the memories; `junk` is the uninitialised scratch memory (three
disjoint parts of one vector, here three copies of one function). -/
def contractP (fuel : Nat) (p : CProps) (Ra Rb Rc : Range) (A B C junk : Int → K) (alpha beta : K) :
    Run (Int → K) :=
  (matA fuel p Ra A junk).bind fun aref =>
  (matB fuel p Rb B junk).bind fun bref =>
  if p.permuteC then
    let cref := MatRange.mk2 aref.1.rn bref.1.cn
    permCopy fuel p.newCrange p.PC Rc (gemm aref.1 aref.2 bref.1 bref.2 cref junk alpha beta) C
  else if p.ctrans then
    some (.ok (gemm aref.1 aref.2 bref.1 bref.2 (MatRange.mk2 bref.1.cn aref.1.rn).transpose C
      alpha beta))
  else
    some (.ok (gemm aref.1 aref.2 bref.1 bref.2 (MatRange.mk2 aref.1.rn bref.1.cn) C alpha beta))

/-- `contractScalar` (contract.cc:826-841): `a` times the tensor `B`. -/
def contractScalar (fuel : Nat) (a : K) (Rb : Range) (bi : List Int) (Rc : Range) (ci : List Int)
    (B C : Int → K) (alpha beta : K) : Run (Int → K) :=
  match calcPerm bi ci with
  | .throw => some .throw
  | .ub => some .ub
  | .ok P =>
    match permuteRange Rb P with
    | .throw => some .throw
    | .ub => some .ub
    | .ok V =>
      if beta = 0 then runTransform fuel (fun b _ => alpha * a * b) V Rc B C
      else runTransform fuel (fun b c => alpha * a * b + beta * c) V Rc B C

/-- `contract(A,ai,B,bi,C,ci,alpha,beta)` (contract.cc:843-866). -/
def contract (fuel : Nat) (Ra : Range) (ai : List Int) (Rb : Range) (bi : List Int) (Rc : Range)
    (ci : List Int) (A B C junk : Int → K) (alpha beta : K) : Run (Int → K) :=
  if ai = [] then contractScalar fuel (A 0) Rb bi Rc ci B C alpha beta
  else if bi = [] then contractScalar fuel (B 0) Ra ai Rc ci A C alpha beta
  else match CProps.compute ai bi ci Ra Rb with
    | .ok p => contractP fuel p Ra Rb Rc A B C junk alpha beta
    | .throw => some .throw
    | .ub => some .ub

end

end Verif.Tensor
