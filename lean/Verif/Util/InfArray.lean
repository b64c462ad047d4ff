import Verif.Base
import Mathlib.Logic.Function.Basic
import Mathlib.Tactic.Common
import Mathlib.Data.List.Basic

/-!
# Model of `InfArray` (util/infarray.h)

An array that keeps up to `N` (`ArrSize`) elements inside the object (`arr_`) and more in a
`std::vector` (`vec_`). `data_` points to the memory in use.
-/

namespace Verif.Util

open Verif

/-- Where `data_` points: nowhere, to the object's own `arr_`, to the buffer of its own `vec_`, or into
another object. -/
inductive Ptr
  | null | arr | vec | other
  deriving DecidableEq, Repr

/-- The members of `InfArray` (infarray.h:54-57). `arr` holds at index `i < N` the element `arr_[i]`;
values at `i ≥ N` have no meaning and are never read. -/
structure InfArray (T : Type*) where
  data : Ptr
  size : Nat
  arr : Nat → T
  vec : List T

namespace InfArray

variable {T : Type*}

/-- `data_[i]`, reading (infarray.h:238-247, release build: no check against `size_`). Reading outside
the memory `data_` points to is undefined; reading another object's memory is counted as undefined
too. -/
def get (N : Nat) (s : InfArray T) (i : Nat) : Res T :=
  match s.data with
  | .arr => if i < N then .ok (s.arr i) else .ub
  | .vec => match s.vec[i]? with | some x => .ok x | none => .ub
  | _ => .ub

/-- `data_[i] = v` (infarray.h:227-236). -/
def set (N : Nat) (s : InfArray T) (i : Nat) (v : T) : Res (InfArray T) :=
  match s.data with
  | .arr => if i < N then .ok { s with arr := Function.update s.arr i v } else .ub
  | .vec => if i < s.vec.length then .ok { s with vec := s.vec.set i v } else .ub
  | _ => .ub

/-- Reads elements `0 .. n-1`, as every loop `for(auto& x : a)` does with `n = size_`. -/
def read (N : Nat) (s : InfArray T) : Nat → Res (List T)
  | 0 => .ok []
  | n + 1 => (read N s n).bind fun l => (get N s n).bind fun x => .ok (l ++ [x])

/-- The elements a user sees. -/
def elems (N : Nat) (s : InfArray T) : Res (List T) := read N s s.size

/-- Writes `v` to elements `0 .. n-1` (`std::fill`). -/
def fillN (N : Nat) (s : InfArray T) (v : T) : Nat → Res (InfArray T)
  | 0 => .ok s
  | n + 1 => (fillN N s v n).bind fun s => set N s n v

/-- Default constructor (infarray.h:60-67); `arr_` is not initialised. -/
def empty (junk : Nat → T) : InfArray T := ⟨.arr, 0, junk, []⟩

/-- `InfArray(size)` (infarray.h:70-87). -/
def ofSize [Inhabited T] (N : Nat) (junk : Nat → T) (n : Nat) : InfArray T :=
  if n ≤ N then ⟨.arr, n, junk, []⟩ else ⟨.vec, n, junk, List.replicate n default⟩

/-- `InfArray(size,value)` (infarray.h:89-97). -/
def ofFill [Inhabited T] (N : Nat) (junk : Nat → T) (n : Nat) (v : T) : Res (InfArray T) :=
  fillN N (ofSize N junk n) v n

/-- The loop of the initializer-list constructor (infarray.h:102-107) from position `i`. -/
def initLoop (N : Nat) (s : InfArray T) : Nat → List T → Res (InfArray T)
  | _, [] => .ok s
  | i, x :: l => (set N s i x).bind fun s => initLoop N s (i + 1) l

/-- `InfArray(initializer_list)` (infarray.h:99-108). -/
def ofList [Inhabited T] (N : Nat) (junk : Nat → T) (l : List T) : Res (InfArray T) :=
  initLoop N (ofSize N junk l.length) 0 l

/-- `setDataPtr` (infarray.h:399-404). -/
def setDataPtr (N : Nat) (s : InfArray T) : InfArray T :=
  { s with data := if s.size ≤ N then .arr else .vec }

/-- Copy construction and copy assignment (infarray.h:110-126). -/
def copy (N : Nat) (o : InfArray T) : InfArray T := setDataPtr N ⟨.null, o.size, o.arr, o.vec⟩

/-- Move construction and move assignment (infarray.h:128-148): the new object and what is left of the
old one. The elements of the moved-from `arr_` are unspecified, `junk`. -/
def move (N : Nat) (junk : Nat → T) (o : InfArray T) : InfArray T × InfArray T :=
  (setDataPtr N ⟨.null, o.size, o.arr, o.vec⟩, ⟨.null, 0, junk, []⟩)

/-- `std::vector::resize`. -/
def vresize [Inhabited T] (l : List T) (n : Nat) : List T := l.take n ++ List.replicate (n - l.length) default

/-- `resize` (infarray.h:150-183). -/
def resize [Inhabited T] (N : Nat) (s : InfArray T) (n : Nat) : Res (InfArray T) :=
  if N < n then
    let v := vresize s.vec n
    let v := if s.size ≤ N then (List.range s.size).map s.arr ++ v.drop s.size else v
    .ok ⟨.vec, n, s.arr, v⟩
  else if N < s.size then
    if n ≤ s.vec.length then
      .ok ⟨.arr, n, fun i => if i < n then (s.vec[i]?).getD (s.arr i) else s.arr i, []⟩
    else .ub
  else .ok ⟨.arr, n, s.arr, []⟩

/-- `fill` (infarray.h:193-197). -/
def fill (N : Nat) (s : InfArray T) (v : T) : Res (InfArray T) := fillN N s v s.size

/-- `assign` (infarray.h:185-191). -/
def assign [Inhabited T] (N : Nat) (s : InfArray T) (n : Nat) (v : T) : Res (InfArray T) :=
  (resize N s n).bind fun s => fill N s v

/-- `clear` (infarray.h:208-214). -/
def clear (s : InfArray T) : InfArray T := ⟨.arr, 0, s.arr, []⟩

/-- What happens to `other.data_` in `swap`: it is not changed, but the buffer of `other.vec_` now
belongs to the first object. -/
def swapPtr : Ptr → Ptr
  | .vec => .other
  | p => p

/-- `a.swap(b)` (infarray.h:216-223): only `a.data_` is updated. -/
def swap (N : Nat) (a b : InfArray T) : InfArray T × InfArray T :=
  (setDataPtr N ⟨a.data, b.size, b.arr, b.vec⟩, ⟨swapPtr b.data, a.size, a.arr, a.vec⟩)

/-- `push_back` (infarray.h:249-272). -/
def pushBack [Inhabited T] (N : Nat) (s : InfArray T) (v : T) : Res (InfArray T) :=
  if s.size < N then .ok { s with arr := Function.update s.arr s.size v, size := s.size + 1 }
  else if s.size = N then (resize N s (s.size + 1)).bind fun s => set N s (s.size - 1) v
  else .ok { s with vec := s.vec ++ [v], data := .vec, size := s.size + 1 }

/-- `erase(begin()+k)` (infarray.h:299-329). For `size_ <= ArrSize` the iterator is looked for in
`arr_`, otherwise in `vec_`, so it is found only if `data_` points there. -/
def erase (N : Nat) (s : InfArray T) (k : Nat) : Res (InfArray T) :=
  if s.size ≤ N then
    if s.data = .arr ∧ k < s.size then
      .ok { s with arr := fun i => if k ≤ i ∧ i + 1 < s.size then s.arr (i + 1) else s.arr i,
                   size := s.size - 1 }
    else .throw
  else
    if s.data = .vec ∧ k < s.vec.length then
      .ok { s with vec := s.vec.eraseIdx k, data := .vec, size := s.size - 1 }
    else .throw

/-- The calls that change one array. -/
inductive Op (T : Type*)
  | push (v : T)
  | resize (n : Nat)
  | assign (n : Nat) (v : T)
  | fill (v : T)
  | clear
  | set (i : Nat) (v : T)
  | erase (k : Nat)

def step [Inhabited T] (N : Nat) (s : InfArray T) : Op T → Res (InfArray T)
  | .push v => pushBack N s v
  | .resize n => resize N s n
  | .assign n v => assign N s n v
  | .fill v => fill N s v
  | .clear => .ok (clear s)
  | .set i v => set N s i v
  | .erase k => erase N s k

def run [Inhabited T] (N : Nat) (s : InfArray T) (ops : List (Op T)) : Res (InfArray T) :=
  Res.foldM (step N) s ops

end InfArray

end Verif.Util
