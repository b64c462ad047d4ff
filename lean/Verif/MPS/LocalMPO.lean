import Verif.Base
import Mathlib.Tactic.Ring
import Mathlib.Tactic.Linarith

/-!
# Projected operators: `LocalMPO`

A model of the bookkeeping of `LocalMPO` (localmpo.h): which environment tensor is in which slot of `PH_`, and in which file. The
environment tensors are of an arbitrary type; a default constructed tensor is `none`. The product
`(E ? E*psi(n) : psi(n)) * Op(n) * dag(prime(psi(n)))` (and `... * dag(prime(Psi(n),"Link"))` when the operator is the projector on
a state `Psi`) is an arbitrary function `absorb n E psi(n)`. It always gives an initialized tensor.
-/

namespace Verif.LocalMPO

variable {E A : Type*}

/-- The data members of a `LocalMPO` (localmpo.h:228-238) that is not null: `N` is the length of the operator, `PH` the vector of
`N+2` tensors, `L`, `R` are `LHlim_`, `RHlim_`, `nc` is `nc_`, `write` is `do_write_`; `file j` is the contents of the file `PH_j` in
the write directory. File names are distinct for distinct `j`. `op` tells whether `Op_` is not null: it is null when the operator is
the projector on a state. -/
structure State (E : Type*) where
  N : Nat
  PH : Int → Option E
  L : Int
  R : Int
  nc : Int
  write : Bool
  file : Int → Option E
  op : Bool

/-- `LocalMPO(H,LH,RH,args)` (localmpo.h:318-337); with `none` for both, `LocalMPO(H,args)` (localmpo.h:275-287).
With `op = false`, the constructors from a state (localmpo.h:289-301, 339-354). -/
def make (N : Nat) (bL bR : Option E) (nc : Int) (op : Bool) : State E :=
  ⟨N, fun k => if k = 0 then bL else if k = N + 1 then bR else none, 0, N + 1, nc, false, fun _ => none, op⟩

/-- Bounds check of `PH_.at(i)`. -/
def at' (s : State E) (i : Int) : Res Unit := if 0 ≤ i ∧ i < s.N + 2 then .ok () else .throw

/-- `PH_.at(i) = e`. -/
def put (s : State E) (i : Int) (e : Option E) : State E := { s with PH := Function.update s.PH i e }

/-- `if(PH_.at(i)) { writeToFile(PHFName(i),PH_.at(i)); PH_.at(i) = ITensor(); }` (localmpo.h:629-633, 657-661). -/
def flush (s : State E) (i : Int) : State E :=
  match s.PH i with
  | some e => { s with PH := Function.update s.PH i none, file := Function.update s.file i (some e) }
  | none => s

/-- `if(!PH_.at(i)) readFromFile(PHFName(i),PH_.at(i));` (localmpo.h:641-645, 669-673). A file that does not exist is an error. -/
def load (s : State E) (i : Int) : Res (State E) :=
  match s.PH i with
  | some _ => .ok s
  | none => match s.file i with
    | some e => .ok (put s i (some e))
    | none => .throw

/-- `setLHlim` (localmpo.h:620-646). -/
def setL (s : State E) (val : Int) : Res (State E) :=
  if s.write = false then .ok { s with L := val }
  else (if s.L ≠ val then (at' s s.L).bind fun _ => .ok (flush s s.L) else .ok s).bind fun s =>
    let s := { s with L := val }
    if val < 1 then (at' s val).bind fun _ => .ok (put s val none)
    else (at' s val).bind fun _ => load s val

/-- `setRHlim` (localmpo.h:648-674). `Op_->length()` is a dereference of a null pointer when there is no operator. -/
def setR (s : State E) (val : Int) : Res (State E) :=
  if s.write = false then .ok { s with R := val }
  else (if s.R ≠ val then (at' s s.R).bind fun _ => .ok (flush s s.R) else .ok s).bind fun s =>
    let s := { s with R := val }
    if s.op = false then .ub
    else if val > s.N then (at' s val).bind fun _ => .ok (put s val none)
    else (at' s val).bind fun _ => load s val

/-- Access to the tensor of a site of the state: outside of `1..N` it is default constructed, and the product with it is
an error (itensor.cc:940). -/
def site (s : State E) (psi : Int → A) (i : Int) : Res A := if 1 ≤ i ∧ i ≤ s.N then .ok (psi i) else .throw

/-- The loop of `makeL` (localmpo.h:542-576); the first argument bounds the number of rounds, and is the exact number
when called from `makeL`. -/
def makeLLoop (absorb : Int → Option E → A → E) (psi : Int → A) (k : Int) : Nat → State E → Res (State E)
  | 0, s => .ok s
  | n + 1, s =>
    if s.L < k then
      (at' s s.L).bind fun _ => (at' s (s.L + 1)).bind fun _ => (site s psi (s.L + 1)).bind fun a =>
        (setL (put s (s.L + 1) (some (absorb (s.L + 1) (s.PH s.L) a))) (s.L + 1)).bind fun s' => makeLLoop absorb psi k n s'
    else .ok s

/-- `makeL` (localmpo.h:542-576). -/
def makeL (absorb : Int → Option E → A → E) (psi : Int → A) (k : Int) (s : State E) : Res (State E) :=
  makeLLoop absorb psi k (k - s.L).toNat s

/-- The loop of `makeR` (localmpo.h:578-618). -/
def makeRLoop (absorb : Int → Option E → A → E) (psi : Int → A) (k : Int) : Nat → State E → Res (State E)
  | 0, s => .ok s
  | n + 1, s =>
    if s.R > k then
      (at' s s.R).bind fun _ => (at' s (s.R - 1)).bind fun _ => (site s psi (s.R - 1)).bind fun a =>
        (setR (put s (s.R - 1) (some (absorb (s.R - 1) (s.PH s.R) a))) (s.R - 1)).bind fun s' => makeRLoop absorb psi k n s'
    else .ok s

/-- `makeR` (localmpo.h:578-618). -/
def makeR (absorb : Int → Option E → A → E) (psi : Int → A) (k : Int) (s : State E) : Res (State E) :=
  makeRLoop absorb psi k (s.R - k).toNat s

/-- `position(b,psi)` (localmpo.h:443-470), up to the update of `lop_`, which receives `L()`, `R()` and the operator tensors. -/
def position (absorb : Int → Option E → A → E) (b : Int) (psi : Int → A) (s : State E) : Res (State E) :=
  (makeL absorb psi (b - 1) s).bind fun s => (makeR absorb psi (b + s.nc) s).bind fun s =>
    (setL s (b - 1)).bind fun s => setR s (b + s.nc)

/-- `L()` (localmpo.h:154-155). -/
def getL (s : State E) : Option E := s.PH s.L

/-- `R()` (localmpo.h:165-166). -/
def getR (s : State E) : Option E := s.PH s.R

/-- `doWrite(val)` (localmpo.h:200-210): an error for the projector on a state; a new, empty directory when it is turned on. -/
def doWrite (s : State E) (val : Bool) : Res (State E) :=
  if s.op = false then .throw
  else .ok (if s.write = false ∧ val = true then { s with write := true, file := fun _ => none } else { s with write := val })

/-- `shift(j,Fromleft,A)` (localmpo.h:482-517). A product with a default constructed tensor is an error. `Op_` is dereferenced. -/
def shiftLeft (absorb : Int → Option E → A → E) (j : Int) (a : A) (s : State E) : Res (State E) :=
  if j - 1 ≠ s.L then .throw
  else (at' s s.L).bind fun _ => (at' s j).bind fun _ => match s.PH s.L with
    | none => .throw
    | some e => if s.op = false then .ub else (setL (put s j (some (absorb j (some e) a))) j).bind fun s => setR s (j + s.nc + 1)

/-- `shift(j,Fromright,A)` (localmpo.h:518-540). The test compares with `LHlim_`. -/
def shiftRight (absorb : Int → Option E → A → E) (j : Int) (a : A) (s : State E) : Res (State E) :=
  if j + 1 ≠ s.L then .throw
  else (at' s s.R).bind fun _ => (at' s j).bind fun _ => match s.PH s.R with
    | none => .throw
    | some e => if s.op = false then .ub else (setL (put s j (some (absorb j (some e) a))) (j - s.nc - 1)).bind fun s => setR s j

end Verif.LocalMPO
