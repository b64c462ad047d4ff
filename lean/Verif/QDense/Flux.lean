import Verif.QDense.AddProps
import Verif.QDense.Combine
import Verif.QDense.ContractProps

/-!
# Tensors with quantum numbers and their flux

Model of the operations of `ITensor` that create, fill, add, multiply and conjugate tensors with quantum
numbers: `/repo/itensor/itensor.cc`, `/repo/itensor/itensor_impl.h`. Property C82.

Simplifications. A tensor is its indices and its storage, which is a null pointer (`none`) or a `QDense`;
there is one type of elements. `USESCALE` is not defined, `DEBUG` is off, `Global::checkArrows()` is true
(its default, global.cc:21-25). All indices of a tensor have quantum numbers. The overload `set(Cplx)` for
order 0, which may allocate dense storage, is left out.
-/

namespace Verif.QDense

open Verif.Index (Index IndexSet)
open Verif.Index.IndexSet (keys)
open Verif.Tensor
open Verif.QN (IsQN norm)

/-- `ITensor` (itensor.h:26-39) with quantum numbers. -/
structure QTensor (K : Type*) where
  is : IndexSet
  store : Option (QDense K)

/-- A computation which always ends. -/
def Run.lift {α} (x : Res α) : Run α := some x

/-- The flux of an element: the loops `elt_flux += dir(iv)*qn(iv)` (itensor_impl.h:313-319) and
`div += qn(iv)*dir(iv)` (itensor.cc:870-875). `ind` counts from 0, `iv` is the value `1+ind[i]`. -/
def eltFlux : IndexSet → List Nat → Verif.QN.QN → Res Verif.QN.QN
  | [], _, q => .ok q
  | _ :: _, [], _ => .ub
  | I :: is, e :: es, q => (I.valQN ((e : Int) + 1)).bind fun x => eltFlux is es (q.add (x.scale I.dir))

section
variable {K : Type*} [CommRing K] [DecidableEq K]

/-- `allocReal(T,ints)` (itensor.cc:862-878) for indices with quantum numbers. -/
def allocElt (fuel : Nat) (is : IndexSet) (ind : List Nat) : Run (QDense K) :=
  Run.bind (Run.lift (eltFlux is ind Verif.QN.QN.default)) fun div => ofDiv fuel is div

/-- `if(!store_) detail::allocReal(*this,inds)`. -/
def storeFor (fuel : Nat) (T : QTensor K) (ind : List Nat) : Run (QDense K) :=
  match T.store with
  | some d => some (.ok d)
  | none => allocElt fuel T.is ind

/-- `checkEltFluxInts` (itensor_impl.h:307-331): throws if the flux of the element is not that of the
tensor. -/
def checkEltFlux (is : IndexSet) (d : QDense K) (ind : List Nat) : Res Unit :=
  (eltFlux is ind Verif.QN.QN.default).bind fun q =>
  (calcDiv is d).bind fun f => if q.eq f then .ok () else .throw

/-- `set(IndexVal...,val)` and `set(int...,val)` (itensor_impl.h:336-412), the values being in the order
of the tensor's indices. -/
def setVals (fuel : Nat) (T : QTensor K) (ind : List Nat) (v : K) : Run (QTensor K) :=
  if ind.length ≠ T.is.length then some .throw
  else Run.bind (storeFor fuel T ind) fun d =>
    Run.bind (Run.lift (checkEltFlux T.is d ind)) fun _ =>
    Run.bind (Run.lift (setElt d T.is ind v)) fun d' => some (.ok ⟨T.is, some d'⟩)

/-- `set(vector<IndexVal>,val)` and `set(vector<int>,val)` (itensor.cc:157-187, 209-241): no check. -/
def setVector (fuel : Nat) (T : QTensor K) (ind : List Nat) (v : K) : Run (QTensor K) :=
  if ind.length ≠ T.is.length then some .throw
  else Run.bind (storeFor fuel T ind) fun d =>
    Run.bind (Run.lift (setElt d T.is ind v)) fun d' => some (.ok ⟨T.is, some d'⟩)

/-- `checkArrows` (itensor.cc:890-917): true if it does not throw. -/
def checkArrows (is1 is2 : IndexSet) (shouldMatch : Bool) : Bool :=
  !(Verif.Index.IndexSet.hasQNs is1 && Verif.Index.IndexSet.hasQNs is2) ||
    is1.all fun I1 => is2.all fun I2 => !(I1.eq I2) || !(xor shouldMatch (I1.dir == I2.dir))

/-- `checkSameDiv` (itensor.cc:919-930). -/
def checkSameDiv (is1 is2 : IndexSet) (A B : QDense K) : Res Unit :=
  if Verif.Index.IndexSet.hasQNs is1 && Verif.Index.IndexSet.hasQNs is2 then
    (calcDiv is1 A).bind fun q1 => (calcDiv is2 B).bind fun q2 => if q1.eq q2 then .ok () else .throw
  else .ok ()

/-- `nnzblocks` (itensor.cc:292-297) on QDense storage. -/
def nnzblocks (is : IndexSet) (B : QDense K) : Nat :=
  if Verif.Index.IndexSet.hasQNs is then B.offsets.length else 1

/-- `daxpy(L,R,alpha)` (itensor.cc:1207-1251) with its checks, both tensors having storage. `calcPerm`
throws if the indices differ. -/
def daxpyT (fuel : Nat) (is1 is2 : IndexSet) (alpha : K) (A B : QDense K) : Run (QDense K) :=
  if is1.length ≠ is2.length then some .throw
  else if nnzblocks is2 B = 0 then some (.ok A)
  else Run.bind (Run.lift (checkSameDiv is1 is2 A B)) fun _ =>
    Run.bind (Run.lift (Permutation.calcPerm (is2.map Index.key) (is1.map Index.key))) fun P =>
    if checkArrows is1 is2 true then plusEq fuel P is1 is2 alpha A B else some .throw

/-- `doTask(Mult,QDense)` (qdense.cc:303-333). -/
def scaleQ (z : K) (d : QDense K) : QDense K := { d with data := fun a => d.data a * z }

/-- `operator*=(z)` (itensor.cc:1014-1019, 1031-1037); a task on a null pointer throws (dotask.h:479). -/
def scaleT (T : QTensor K) (z : K) : Run (QTensor K) :=
  match T.store with
  | some d => some (.ok ⟨T.is, some (scaleQ z d)⟩)
  | none => some .throw

/-- `operator+=` (itensor.cc:1253-1264) for two different objects. A tensor whose storage is a null
pointer has no number of blocks: `nnzblocks` throws. -/
def plusT (fuel : Nat) (L R : QTensor K) : Run (QTensor K) :=
  match L.store, R.store with
  | none, _ => some (.ok R)
  | some _, none => some .throw
  | some A, some B =>
    Run.bind (daxpyT fuel L.is R.is 1 A B) fun A' => some (.ok ⟨L.is, some A'⟩)

/-- `operator-=` (itensor.cc:1266-1279) for two different objects, with `operator-` (itensor.cc:1070-1076). -/
def minusT (fuel : Nat) (L R : QTensor K) : Run (QTensor K) :=
  match L.store, R.store with
  | none, _ => scaleT R (-1)
  | some _, none => some .throw
  | some A, some B =>
    Run.bind (daxpyT fuel L.is R.is (-1) A B) fun A' => some (.ok ⟨L.is, some A'⟩)

/-- `operator*=(ITensor)` (itensor.cc:935-981); `order`, `mem`, `junk` as in `contractQ`. Tensors of order
0 are read by `eltC()` (itensor.cc:83-111). -/
def timesT (order : List Task → List Task) (fuel : Nat) (mem junk : Int → K) (L R : QTensor K) :
    Run (QTensor K) :=
  match L.store, R.store with
  | some A, some B =>
    if L.is = [] then Run.bind (Run.lift (getElt A [] [])) fun z => scaleT R z
    else if R.is = [] then Run.bind (Run.lift (getElt B [] [])) fun z => scaleT L z
    else if checkArrows L.is R.is false then
      Run.bind (contractQ order fuel L.is R.is A B mem junk) fun r => some (.ok ⟨r.2.map (·.1), some r.1⟩)
    else some .throw
  | _, _ => some .throw

/-- `dag()` (itensor.cc:251-256) with `Conj` (qdense.cc:375-380); `hasQNs(is_)` is false for order 0,
where there is no arrow. -/
def dagT (cj : K → K) (T : QTensor K) : Run (QTensor K) :=
  match T.store with
  | some d => some (.ok ⟨T.is.map Index.dag, some { d with data := fun a => cj (d.data a) }⟩)
  | none => some .throw

/-! ## Programs -/

/-- One statement of a program working on numbered tensors. -/
inductive Instr (K : Type*) where
  /-- `T = ITensor(is)` (itensor.cc:34-39). -/
  | new (r : Nat) (is : IndexSet)
  /-- `T = ITensor(q,is)` (itensor.cc:75-81). -/
  | newDiv (r : Nat) (is : IndexSet) (div : Verif.QN.QN)
  /-- `T.set(i1,...,v)`. -/
  | set (r : Nat) (ind : List Nat) (v : K)
  /-- `T.set({i1,...},v)`. -/
  | setVec (r : Nat) (ind : List Nat) (v : K)
  /-- `T1 = T2`. -/
  | copy (l r : Nat)
  /-- `T1 += T2`. -/
  | add (l r : Nat)
  /-- `T1 -= T2`. -/
  | sub (l r : Nat)
  /-- `T1 *= T2`. -/
  | mul (l r : Nat) (order : List Task → List Task) (mem junk : Int → K)
  /-- `T *= z`. -/
  | scale (r : Nat) (z : K)
  /-- `T.dag()`. -/
  | dag (r : Nat)

/-- The effect of a statement; the first component is the tensor assigned to. -/
def exec1 (cj : K → K) (fuel : Nat) (s : Nat → QTensor K) : Instr K → Nat × Run (QTensor K)
  | .new r is => (r, some (.ok ⟨is, none⟩))
  | .newDiv r is div => (r, Run.bind (ofDiv fuel is div) fun d => some (.ok ⟨is, some d⟩))
  | .set r ind v => (r, setVals fuel (s r) ind v)
  | .setVec r ind v => (r, setVector fuel (s r) ind v)
  | .copy l r => (l, some (.ok (s r)))
  | .add l r => (l, if l = r then (match (s l).store with
      | some _ => scaleT (s l) 2
      | none => some (.ok (s l))) else plusT fuel (s l) (s r))
  | .sub l r => (l, if l = r then (match (s l).store with
      | some _ => scaleT (s l) 0
      | none => some .throw) else minusT fuel (s l) (s r))
  | .mul l r order mem junk => (l, timesT order fuel mem junk (s l) (s r))
  | .scale r z => (r, scaleT (s r) z)
  | .dag r => (r, dagT cj (s r))

/-- A program runs its statements in order; it stops at the first error. -/
def exec (cj : K → K) (fuel : Nat) : List (Instr K) → (Nat → QTensor K) → Run (Nat → QTensor K)
  | [], s => some (.ok s)
  | i :: p, s =>
    Run.bind (exec1 cj fuel s i).2 fun T => exec cj fuel p (Function.update s (exec1 cj fuel s i).1 T)

end

end Verif.QDense
