import Verif.Base
import Mathlib.Data.List.Count
import Mathlib.Tactic.SplitIfs

/-!
# Shared storage of tensors

Model of the handling of storage pointers: `PData`, `CPData`, `ITWrap::clone`, `ManageStore` (`/repo/itensor/itdata/itdata.h:27-330`) and the
dispatch of tasks (`/repo/itensor/itdata/dotask.h:480-760`). Property C29.

A tensor holds a shared pointer to its storage. Copying a tensor copies the pointer. A task that writes calls `modifyData`, which replaces the storage by a
copy unless the pointer is the only one, or puts a new storage in place of the old one when it is over.

Simplifications. `std::shared_ptr` is modelled by a heap with explicit reference counts; storages are values of any type `V` with a storage type `ty`;
a task is any program of reads and writes through the references it is given. One thread. No registered storage type is lazy (storage_types.h:60-75), so
the branches for `evaluate` are dead. Index sets are values and not shared. A task does not start another task on the same tensor.
-/

namespace Verif.Cow

open Verif

/-- The storage objects, each with its reference count, and the storage pointers of all tensors (`none`: the null pointer). -/
structure St (V : Type*) where
  heap : Nat → Option (V × Nat)
  next : Nat
  hs : List (Option Nat)

/-- `action_` (itdata.h:125-130). -/
inductive Act | none | new | rtol
  deriving DecidableEq

/-- What the body of a task can do. `d1`, `d2`: the references to the storages given to it; `M`: the pointer obtained from `modifyData`;
`N`: the pointer obtained from `makeNewData`. -/
inductive Prog (V R : Type*)
  | done (r : R)
  | fail
  | read1 (k : V → Prog V R)
  | read2 (k : V → Prog V R)
  | modify (k : Prog V R)
  | readM (k : V → Prog V R)
  | writeM (v : V) (k : Prog V R)
  | new (v : V) (k : Prog V R)
  | readN (k : V → Prog V R)
  | writeN (v : V) (k : Prog V R)
  | rtol (k : Prog V R)

section model
variable {V R : Type*}

/-- Copying a `shared_ptr`: the count goes up. -/
def retain (s : St V) : Option Nat → Res (St V)
  | .none => .ok s
  | .some a => match s.heap a with
    | .none => .ub
    | .some (v, c) => .ok { s with heap := Function.update s.heap a (some (v, c + 1)) }

/-- Destroying a `shared_ptr`: the count goes down, at zero the object is deleted. -/
def release (s : St V) : Option Nat → Res (St V)
  | .none => .ok s
  | .some a => match s.heap a with
    | .none => .ub
    | .some (v, c) => .ok { s with heap := Function.update s.heap a (if c ≤ 1 then .none else some (v, c - 1)) }

/-- `*pparg1_ = std::move(p)`: the pointer is handed over, the old one destroyed. -/
def moveInto (s : St V) (h : Nat) (p : Option Nat) : Res (St V) :=
  match s.hs[h]? with
  | .none => .ub
  | .some old => release { s with hs := s.hs.set h p } old

/-- `*pparg1_ = *pparg2_`. -/
def copyInto (s : St V) (h : Nat) (p : Option Nat) : Res (St V) :=
  (retain s p).bind fun s => moveInto s h p

/-- `std::make_shared`: a new object with one pointer to it. -/
def alloc (s : St V) (v : V) : Nat × St V :=
  (s.next, { s with heap := Function.update s.heap s.next (some (v, 1)), next := s.next + 1 })

/-- The object a raw pointer points to. -/
def peek (s : St V) (a : Nat) : Res V :=
  match s.heap a with
  | .none => .ub
  | .some (v, _) => .ok v

/-- Writing through a raw pointer. -/
def poke (s : St V) (a : Nat) (v : V) : Res (St V) :=
  match s.heap a with
  | .none => .ub
  | .some (_, c) => .ok { s with heap := Function.update s.heap a (some (v, c)) }

/-- State of a task: its references and the members of `ManageStore` (itdata.h:132-135). -/
structure Frame where
  d1 : Nat
  d2 : Option Nat
  pm : Option Nat
  nd : Option Nat
  act : Act

/-- The pointer of tensor `h`, `arg->`: null is undefined (checked in debug builds only, dotask.h:466-476). -/
def deref (s : St V) (h : Nat) : Res Nat :=
  match s.hs[h]? with
  | some (some a) => .ok a
  | _ => .ub

/-- `ManageStore::modifyData` (itdata.h:304-316). -/
def modifyData (s : St V) (h : Nat) : Res (Nat × St V) :=
  (deref s h).bind fun a =>
  match s.heap a with
  | .none => .ub
  | .some (v, c) =>
    if c = 1 then .ok (a, s)
    else
      let p := alloc s v
      (moveInto p.2 h (some p.1)).bind fun s => .ok (p.1, s)

/-- Running the body of a task; the result `none` means that an exception left it. -/
def exec (h : Nat) : Prog V R → Frame → St V → Res (Frame × St V × Option R)
  | .done r, f, s => .ok (f, s, some r)
  | .fail, f, s => .ok (f, s, none)
  | .read1 k, f, s => (peek s f.d1).bind fun v => exec h (k v) f s
  | .read2 k, f, s => match f.d2 with
    | .none => .ub
    | .some a => (peek s a).bind fun v => exec h (k v) f s
  | .modify k, f, s => (modifyData s h).bind fun x => exec h k { f with pm := some x.1 } x.2
  | .readM k, f, s => match f.pm with
    | .none => .ub
    | .some a => (peek s a).bind fun v => exec h (k v) f s
  | .writeM v k, f, s => match f.pm with
    | .none => .ub
    | .some a => (poke s a v).bind fun s => exec h k f s
  | .new v k, f, s =>
    let p := alloc s v
    (release p.2 f.nd).bind fun s => exec h k { f with nd := some p.1, act := .new } s
  | .readN k, f, s => match f.nd with
    | .none => .ub
    | .some a => (peek s a).bind fun v => exec h (k v) f s
  | .writeN v k, f, s => match f.nd with
    | .none => .ub
    | .some a => (poke s a v).bind fun s => exec h k f s
  | .rtol k, f, s => exec h k { f with act := .rtol } s

/-- `updateArg1` in the destructor (itdata.h:277-293), also when an exception left the task, and the destruction of `nd_`. -/
def finish (h : Nat) (g : Option Nat) (f : Frame) (s : St V) : Res (St V) :=
  match f.act with
  | .none => release s f.nd
  | .new => moveInto s h f.nd
  | .rtol => match g with
    | .none => .ub
    | .some g => match s.hs[g]? with
      | .none => .ub
      | .some p => (copyInto s h p).bind fun s => release s f.nd

/-- The overload of `doTask` for a task and storage types: with a `const` storage, with a storage that can be changed, or none. -/
inductive Entry (V R : Type*)
  | const (p : Prog V R)
  | nonconst (p : Prog V R)
  | missing

/-- `OneArg::call` and `CallWrap::applyToImpl` (dotask.h:507-539, 552-635); `nc`: the first argument is a `PData`, not a `CPData`. -/
def call (nc : Bool) : Entry V R → Prog V R
  | .const p => p
  | .nonconst p => if nc then .modify p else .fail
  | .missing => .fail

variable {T : Type*}

/-- `doTask(t,arg)` and `doTask(t,arg1,arg2)` (dotask.h:664-735). -/
def doTask (ty : V → T) (nc : Bool) (t : T → Option T → Entry V R) (h : Nat) (g : Option Nat) (s : St V) : Res (St V × Option R) :=
  (deref s h).bind fun d1 => (peek s d1).bind fun v1 =>
  match g with
  | .none => (exec h (call nc (t (ty v1) .none)) ⟨d1, .none, .none, .none, .none⟩ s).bind fun x =>
      (finish h .none x.1 x.2.1).bind fun s => .ok (s, x.2.2)
  | .some g' => (deref s g').bind fun d2 => (peek s d2).bind fun v2 =>
      (exec h (call nc (t (ty v1) (some (ty v2)))) ⟨d1, some d2, .none, .none, .none⟩ s).bind fun x =>
      (finish h g x.1 x.2.1).bind fun s => .ok (s, x.2.2)

/-- What a program does with its tensors: declare one, make one with new storage, copy (construction or assignment), move, destroy, run a task. -/
inductive Op (V R T : Type*)
  | decl
  | create (h : Nat) (v : V)
  | copy (h g : Nat)
  | move (h g : Nat)
  | destroy (h : Nat)
  | task (nc : Bool) (t : T → Option T → Entry V R) (h : Nat) (g : Option Nat)

/-- One statement; the result is what a task returns. -/
def Op.run (ty : V → T) : Op V R T → St V → Res (St V × Option R)
  | .decl, s => .ok ({ s with hs := s.hs ++ [.none] }, .none)
  | .create h v, s => let p := alloc s v; (moveInto p.2 h (some p.1)).bind fun s => .ok (s, .none)
  | .copy h g, s => match s.hs[g]? with
    | .none => .ub
    | .some p => (copyInto s h p).bind fun s => .ok (s, .none)
  | .move h g, s => match s.hs[g]? with
    | .none => .ub
    | .some p => if h = g then .ok (s, .none) else (moveInto { s with hs := s.hs.set g .none } h p).bind fun s => .ok (s, .none)
  | .destroy h, s => (moveInto s h .none).bind fun s => .ok (s, .none)
  | .task nc t h g, s => doTask ty nc t h g s

/-- A program. -/
def runAll (ty : V → T) : List (Op V R T) → St V → Res (St V × List (Option R))
  | [], s => .ok (s, [])
  | o :: os, s => (o.run ty s).bind fun x => (runAll ty os x.1).bind fun y => .ok (y.1, x.2 :: y.2)

/-- The storages seen through the tensors. -/
def obs (s : St V) : List (Option V) := s.hs.map fun p => p.bind fun a => (s.heap a).map (·.1)

/-! ### Values -/

/-- The body of a task on values: `m` the value written through `M`, `n` that through `N`. With `a1` (`a2`) the first (second) reference shows what is written through `M`. -/
def Prog.eval (a1 a2 : Bool) (v1 : V) (v2 : Option V) : Prog V R → Option V → Option V → Act → Option (Option V × Option V × Act × Option R)
  | .done r, m, n, a => some (m, n, a, some r)
  | .fail, m, n, a => some (m, n, a, none)
  | .read1 k, m, n, a => (k (if a1 then m.getD v1 else v1)).eval a1 a2 v1 v2 m n a
  | .read2 k, m, n, a => match v2 with
    | .none => none
    | .some v2' => (k (if a2 then m.getD v2' else v2')).eval a1 a2 v1 v2 m n a
  | .modify k, m, n, a => k.eval a1 a2 v1 v2 (some (m.getD v1)) n a
  | .readM k, m, n, a => match m with
    | .none => none
    | .some v => (k v).eval a1 a2 v1 v2 m n a
  | .writeM v k, m, n, a => match m with
    | .none => none
    | .some _ => k.eval a1 a2 v1 v2 (some v) n a
  | .new v k, m, _, _ => k.eval a1 a2 v1 v2 m (some v) .new
  | .readN k, m, n, a => match n with
    | .none => none
    | .some v => (k v).eval a1 a2 v1 v2 m n a
  | .writeN v k, m, n, a => match n with
    | .none => none
    | .some _ => k.eval a1 a2 v1 v2 m (some v) a
  | .rtol k, m, n, _ => match v2 with
    | .none => none
    | .some _ => k.eval a1 a2 v1 v2 m n .rtol

/-- The storage of the first tensor afterwards; `same`: the second is the same tensor. -/
def finalVal (same : Bool) (v1 : V) (v2 : Option V) (m n : Option V) : Act → Option V
  | .none => some (m.getD v1)
  | .new => n
  | .rtol => if same then some (m.getD v1) else v2

end model

end Verif.Cow
