import Verif.QDense.FluxC82
import Verif.MPS.Inner

/-!
# Product states: model of `MPS(InitState)`

Sources: `/repo/itensor/mps/mps.cc` (`MPS(InitState)`, `init_tensors`, `InitState`, `findCenter`),
`/repo/itensor/mps/mpsalgs.cc` (`checkQNs`, `totalQN`), `/repo/itensor/itensor_impl.h` (`setElt`).

Simplifications. Index values count from 0. The names of the link indices are given: `lnk i` is the random
id made by `generateID()` and the tags `"Link,l=i"`. Messages printed by `checkQNs` are left out.
-/

namespace Verif.MPS

open Verif.Index (Index IndexSet)
open Verif.Index.IndexSet (commonInds)
open Verif.QDense (QTensor setVals)
open Verif.QN (QN)
open Verif.Net (DTensor)
open Verif.Tensor

/-- `IndexVal` (index.h:281-330). -/
abbrev IVal := Index × Nat

/-- `qn(IndexVal)` (index.cc:443-448). -/
def ivQN (v : IVal) : Res QN := v.1.valQN ((v.2 : Int) + 1)

/-- `setAll` (mps.cc:1003-1011) and the constructors (mps.cc:974-993): `f n` is `sites_(n,state)`, or `sites_(n)(1)`. -/
def initAll (N : Nat) (f : Nat → Res IVal) : Res (List IVal) :=
  Res.foldM (fun s n => (f (n + 1)).bind fun v => .ok (s ++ [v])) [] (List.range N)

/-- `InitState::set` (mps.cc:995-1001) with `checkRange` (mps.cc:1361-1370). -/
def initSet (s : List IVal) (i : Int) (v : Res IVal) : Res (List IVal) :=
  if i > s.length ∨ i < 1 then .throw else v.bind fun x => .ok (s.set (i.toNat - 1) x)

/-- `qa[0] -= qn(initState(i))*In` over all sites (mps.cc:563). -/
def leftQN : List IVal → QN → Res QN
  | [], q => .ok q
  | v :: vs, q => (ivQN v).bind fun x => leftQN vs (q.sub (x.scale (-1)))

/-- `qa[i] = Out*(-qa[i-1]*In - qn(initState(i)))` (mps.cc:569). -/
def nextQN (q x : QN) : QN := ((q.neg.scale (-1)).sub x).scale 1

/-- The loop for `qa[1]` to `qa[N]` (mps.cc:566-570). -/
def linkQNs : QN → List IVal → Res (List QN)
  | _, [] => .ok []
  | q, v :: vs => (ivQN v).bind fun x => (linkQNs (nextQN q x) vs).bind fun r => .ok (nextQN q x :: r)

/-- `a[i] = Index(qa[i],1,"Link,l=i")` (mps.cc:571, index.h:147-155), numbered from `k`. -/
def qnLinks (lnk : Nat → Nat × Verif.TagSet.TagSet) : Nat → List QN → IndexSet
  | _, [] => []
  | k, q :: qs => ⟨(lnk k).1, 1, 1, (lnk k).2, [(q, 1)]⟩ :: qnLinks lnk (k + 1) qs

/-- `a[i] = Index(1,"Link,l=i")` (mps.cc:575) for `n` bonds from `k`. -/
def denseLinks (lnk : Nat → Nat × Verif.TagSet.TagSet) : Nat → Nat → IndexSet
  | _, 0 => []
  | k, n + 1 => ⟨(lnk k).1, 1, 1, (lnk k).2, []⟩ :: denseLinks lnk (k + 1) n

/-- The arguments of `setElt` for the sites after the first (mps.cc:580-584); `p` is the link on the left. -/
def restVals (p : Index) : List IVal → IndexSet → List (List IVal)
  | [], _ => []
  | [v], _ => [[(p.dag, 0), v]]
  | v :: vs, a :: as => [(p.dag, 0), v, (a, 0)] :: restVals a vs as
  | _ :: _, [] => []

section
variable {K : Type*} [CommRing K] [DecidableEq K]

/-- `setElt(iv1,...)` (itensor_impl.h:456-501) for indices with quantum numbers. -/
def setEltQ (fuel : Nat) (v : List IVal) : Run (QTensor K) :=
  setVals fuel ⟨v.map (·.1), none⟩ (v.map (·.2)) 1

/-- One tensor for each list of values. -/
def setAllQ (fuel : Nat) : List (List IVal) → Run (List (QTensor K))
  | [] => some (.ok [])
  | v :: vs => Run.bind (setEltQ fuel v) fun T => Run.bind (setAllQ fuel vs) fun r => some (.ok (T :: r))

/-- `init_tensors` (mps.cc:557-585), sites with quantum numbers. For one site the second assignment replaces the
first, and `a[0]` is a default constructed `Index`. No site: `initState(1)` throws (mps.cc:1363). -/
def initQ (fuel : Nat) (lnk : Nat → Nat × Verif.TagSet.TagSet) (vs : List IVal) : Run (List (QTensor K)) :=
  Run.bind (some (leftQN vs QN.default)) fun q0 => Run.bind (some (linkQNs q0 vs)) fun qs =>
    match vs, qnLinks lnk 1 qs with
    | [v], a :: _ => Run.bind (setEltQ (K := K) fuel [v, (a, 0)]) fun _ =>
        setAllQ fuel (restVals nullIndex [v] [])
    | v :: vs, a :: as => Run.bind (setEltQ fuel [v, (a, 0)]) fun T =>
        Run.bind (setAllQ fuel (restVals a vs as)) fun r => some (.ok (T :: r))
    | _, _ => some .throw

/-- `setElt(iv1,...)` for indices without quantum numbers: storage filled with zeros, one element set to 1. -/
def setEltD (v : List IVal) : DTensor K :=
  ⟨v.map (·.1), fun a => if a = (rank ((v.map (·.1)).map (·.dim)) (v.map (·.2)) : Nat) then 1 else 0⟩

/-- `init_tensors` (mps.cc:557-585), sites without quantum numbers. -/
def initD (lnk : Nat → Nat × Verif.TagSet.TagSet) (vs : List IVal) : Res (List (DTensor K)) :=
  match vs, denseLinks lnk 1 vs.length with
  | [v], _ => .ok ((restVals nullIndex [v] []).map setEltD)
  | v :: vs, a :: as => .ok (([v, (a, 0)] :: restVals a vs as).map setEltD)
  | _, _ => .throw

end

section
variable {K : Type*} [CommRing K]

/-- `flux(ITensor)` (itensor.cc:1645-1657). -/
def fluxT (T : QTensor K) : Res QN :=
  if !Verif.Index.IndexSet.hasQNs T.is then .throw
  else match T.store with
    | none => .throw
    | some d => Verif.QDense.calcDiv T.is d

/-- `totalQN` (mpsalgs.cc:241-252): the sum over the tensors `A_[l+1]` to `A_[r-1]`. -/
def totalQN (A : List (QTensor K)) (l r : Nat) : Res QN :=
  Res.foldM (fun q T => (fluxT T).bind fun f => .ok (q.add f)) QN.default ((A.drop l).take (r - 1 - l))

/-- `findCenter` (mps.cc:1395-1416): the first tensor, numbered from `j`, all of whose arrows are the same. -/
def findCenter : Nat → List (QTensor K) → Res (Option Nat)
  | _, [] => .ok none
  | j, T :: Ts => match T.is with
    | [] => .throw
    | I :: is => if is.all (·.dir == I.dir) then .ok (some j) else findCenter (j + 1) Ts

/-- The loop over all tensors but the centre (mpsalgs.cc:185-201). -/
def checkDivs (c : Nat) : Nat → List (QTensor K) → Res Bool
  | _, [] => .ok true
  | i, T :: Ts => if i = c then checkDivs c (i + 1) Ts else
      match T.store with
      | none => .ok false
      | some _ => (fluxT T).bind fun q => if !q.eq QN.default then .ok false else checkDivs c (i + 1) Ts

/-- `rightLinkIndex(psi,i)` and `leftLinkIndex(psi,i)` (mps.cc:1228-1252) for the tensor `i` and its neighbour. -/
def linkTo (A : List (QTensor K)) (i j : Nat) : Res Index :=
  match A[i - 1]?, A[j - 1]? with
  | some T, some U => findIndex (commonInds T.is U.is)
  | _, _ => .ok nullIndex

/-- The checks of the arrows on the left (mpsalgs.cc:204-219) for the sites of `is`. -/
def checkLeft (A : List (QTensor K)) : List Nat → Res Bool
  | [] => .ok true
  | i :: is => (linkTo A i (i + 1)).bind fun r => if r.dir ≠ -1 then .ok false
      else if i > 1 then (linkTo A i (i - 1)).bind fun l => if l.dir ≠ 1 then .ok false else checkLeft A is
      else checkLeft A is

/-- The checks of the arrows on the right (mpsalgs.cc:222-235). -/
def checkRight (A : List (QTensor K)) : List Nat → Res Bool
  | [] => .ok true
  | i :: is => (if i < A.length then (linkTo A i (i + 1)).bind fun r => .ok (r.dir == 1) else .ok true).bind fun b =>
      if !b then .ok false
      else (linkTo A i (i - 1)).bind fun l => if l.dir ≠ -1 then .ok false else checkRight A is

/-- `checkQNs(MPS)` (mpsalgs.cc:170-239). -/
def checkQNs (A : List (QTensor K)) : Res Bool :=
  (findCenter 1 A).bind fun
    | none => .ok false
    | some c => (checkDivs c 1 A).bind fun b => if !b then .ok false
        else (checkLeft A (List.range' 1 (c - 1))).bind fun b => if !b then .ok false
        else checkRight A (List.range' (c + 1) (A.length - c)).reverse

end

end Verif.MPS
