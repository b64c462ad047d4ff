import Verif.Base
import Mathlib.Data.List.Basic
import Mathlib.Logic.Function.Basic
import Mathlib.Logic.Relation

/-!
# Messages between processes: `MailBox`, `scatterVector`, `gatherVector` and `broadcast`

Source: `/repo/itensor/util/parallel.h`. MPI is not modelled as such: between two processes there is, for every tag, a queue of messages in the order sent; a send puts a message at the
end and returns (it is buffered); a receive waits for the first. A message longer than the buffer of the receiver is an error. Any process which can go on may do so, in any order. `int` has no
bounds. An object is the string of bytes which `itensor::write` gives.
-/

namespace Verif.Mpi

abbrev Byte := UInt8

/-- The three tags of a `MailBox`: `flagTag()`, `sizeTag()` and `tag()` (parallel.h:155-156, 201-205); those of different mailboxes with the same process are different (`new_tag`, parallel.h:194-199). -/
inductive Chan where
  | flag | size | data
  deriving DecidableEq

inductive Msg where
  | flag
  | size (n : Nat)
  | data (l : List Byte)
  deriving DecidableEq

/-- `MPI_Send` of `q` full buffers and of the remainder. parallel.h:526-530 -/
def chunks (B rem : Nat) : Nat → List Byte → List (Chan × Msg)
  | 0, d => [(.data, .data (d.take rem))]
  | q + 1, d => (.data, .data (d.take B)) :: chunks B rem q (d.drop B)

/-- `MailBox::send(data)` with a buffer of size `B`: the messages sent. parallel.h:513-531 -/
def sends (B : Nat) (d : List Byte) : List (Chan × Msg) :=
  (.flag, .flag) :: (.size, .size d.length) :: chunks B (d.length % B) (d.length / B) d

/-- Where `MailBox::receive(data)` is, with the contents of `rbuffer` and the stream so far. parallel.h:469-490 -/
inductive RState where
  | waitFlag (buf : List Byte)
  | waitSize (buf : List Byte)
  | chunk (q rem : Nat) (buf out : List Byte)
  | done (out : List Byte)
  | failed

/-- The tag which the receiver waits for. -/
def want : RState → Option Chan
  | .waitFlag _ => some .flag
  | .waitSize _ => some .size
  | .chunk _ _ _ _ => some .data
  | .done _ => none
  | .failed => none

/-- `MPI_Recv(&rbuffer.front(),n,...)` and `data.write(&rbuffer.front(),n)`: a message longer than `n` is an error, after a shorter one the rest of the buffer is what it was. -/
def recvInto (n : Nat) (buf l : List Byte) : Option (List Byte) := if n < l.length then none else some (l ++ buf.drop l.length)

/-- The receiver gets a message. parallel.h:473-486 -/
def recv (B : Nat) : RState → Msg → RState
  | .waitFlag buf, .flag => .waitSize buf
  | .waitSize buf, .size n => .chunk (n / B) (n % B) buf []
  | .chunk (q + 1) rem buf out, .data l =>
    match recvInto B buf l with
    | some b => .chunk q rem b (out ++ b.take B)
    | none => .failed
  | .chunk 0 rem buf out, .data l =>
    match recvInto rem buf l with
    | some b => .done (out ++ b.take rem)
    | none => .failed
  | _, _ => .failed

/-! ## One process to many: `scatterVector` -/

/-- What all processes together have still to do: the messages which the first process has still to send (to whom, with which tag), the queues to the other processes, and where these are. -/
structure Net where
  prog : List (Nat × Chan × Msg)
  q : Nat → Chan → List Msg
  st : Nat → RState

/-- One process goes on: the first one sends, or another one receives. -/
inductive Step (B : Nat) : Net → Net → Prop
  | send (i : Nat) (c : Chan) (m : Msg) (p : List (Nat × Chan × Msg)) (q : Nat → Chan → List Msg) (st : Nat → RState) :
    Step B ⟨(i, c, m) :: p, q, st⟩ ⟨p, Function.update q i (Function.update (q i) c (q i c ++ [m])), st⟩
  | recv (i : Nat) (c : Chan) (m : Msg) (r : List Msg) (p : List (Nat × Chan × Msg)) (q : Nat → Chan → List Msg) (st : Nat → RState) :
    want (st i) = some c → q i c = m :: r →
    Step B ⟨p, q, st⟩ ⟨p, Function.update q i (Function.update (q i) c r), Function.update st i (Mpi.recv B (st i) m)⟩

/-- `blockSizes`. parallel.h:328-338 -/
def blockSizes (n k : Nat) : List Nat := (List.range k).map fun i => if i < n % k then n / k + 1 else n / k

/-- The pieces `v.begin()+itp` to `v.begin()+itp+blockSizes[i]`. parallel.h:343-349 -/
def cut {α : Type*} (v : List α) : List Nat → List (List α)
  | [] => []
  | s :: ss => v.take s :: cut (v.drop s) ss

/-- `scatterVector` for `k` processes, at its start: the first process keeps the first piece (`v.resize(mySize)`), and the others have their mailboxes; `enc` is `itensor::write` of a vector. parallel.h:318-360 -/
def scatter {α : Type*} (B k : Nat) (enc : List α → List Byte) (buf : Nat → List Byte) (v : List α) : Net :=
  ⟨((List.range k).zip (cut v (blockSizes v.length k))).tail.flatMap fun x => (sends B (enc x.2)).map fun y => (x.1, y), fun _ _ => [], fun i => .waitFlag (buf i)⟩

/-! ## Many processes to one: `gatherVector` -/

/-- What the others have still to send, the queues from them, the process from which the first one is receiving, where it is in that, and what it has received so far. -/
structure GNet where
  prog : Nat → List (Chan × Msg)
  q : Nat → Chan → List Msg
  cur : Nat
  st : RState
  got : List (List Byte)

/-- One process goes on: another one sends, the first one receives, or it goes on to the next mailbox (of which `buf` is the buffer). parallel.h:369-383 -/
inductive GStep (B k : Nat) (buf : Nat → List Byte) : GNet → GNet → Prop
  | send (i : Nat) (c : Chan) (m : Msg) (l : List (Chan × Msg)) (N : GNet) : N.prog i = (c, m) :: l →
    GStep B k buf N { N with prog := Function.update N.prog i l, q := Function.update N.q i (Function.update (N.q i) c (N.q i c ++ [m])) }
  | recv (c : Chan) (m : Msg) (r : List Msg) (N : GNet) : N.cur < k → want N.st = some c → N.q N.cur c = m :: r →
    GStep B k buf N { N with q := Function.update N.q N.cur (Function.update (N.q N.cur) c r), st := Mpi.recv B N.st m }
  | next (out : List Byte) (N : GNet) : N.cur < k → N.st = .done out →
    GStep B k buf N { N with cur := N.cur + 1, st := .waitFlag (buf (N.cur + 1)), got := N.got ++ [out] }

/-- `gatherVector` for `k` processes, at its start: process `i` sends its part. parallel.h:362-384 -/
def gather {α : Type*} (B k : Nat) (enc : List α → List Byte) (buf : Nat → List Byte) (part : Nat → List α) : GNet :=
  ⟨fun i => if 1 ≤ i ∧ i < k then sends B (enc (part i)) else [], fun _ _ => [], 1, .waitFlag (buf 1), []⟩

/-- What the first process has at the end of `gatherVector`: its own part, and after it the others; `dec` is `itensor::read`. parallel.h:371-377 -/
def gathered {α : Type*} (dec : List Byte → List α) (own : List α) (got : List (List Byte)) : List α := got.foldl (fun v d => v ++ dec d) own

/-! ## `broadcast` -/

/-- The messages of `Environment::broadcast`: `q` full buffers and then `rem+shift` characters; `past` is what is in memory after the characters of the string. parallel.h:253-264 -/
def bchunks (B n : Nat) : Nat → List Byte → List (List Byte)
  | 0, d => [d.take n]
  | q + 1, d => d.take B :: bchunks B n q (d.drop B)

/-- `Environment::broadcast(data)`: the stream of another process. A string of bytes is followed by a zero; to read what comes after the zero is undefined behaviour (`past = none`), or gives
some byte. To receive more than the buffer holds is undefined behaviour. parallel.h:245-282 -/
def broadcast (B : Nat) (past : Option Byte) (d : List Byte) : Res (List Byte) :=
  match past with
  | none => .ub
  | some b =>
    if B = 0 then .ub
    else if B < d.length % B + 2 then .ub
    else .ok (bchunks B (d.length % B + 2) (d.length / B) (d ++ [0, b])).flatten

end Verif.Mpi
