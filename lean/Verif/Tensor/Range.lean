import Verif.Base
import Mathlib.Algebra.BigOperators.Group.List.Basic

/-!
# `RangeT`, `RangeIter`, slices of ranges, `GCounter`

Model of `/repo/itensor/tensor/range.h`, `rangeiter.h`, `slicerange.h`, `sliceten.h` and
`/repo/itensor/detail/gcounter.h`.  `size_t` values are natural numbers; differences of `size_t`
values are integers (exact as long as the true value is in range, which the theorems show).
-/

namespace Verif.Tensor

/-- `IndStr` (range.h:51-74): an extent (`ind`, converted to `size_t`) and a stride. -/
structure IndStr where
  ind : Nat := 0
  str : Nat := 0
  deriving DecidableEq, Repr

/-- `RangeT` (range.h:76-207): its store. The template parameter `start` (0 for `Range`, 1 for
`Range1`) is passed to the functions that use it. -/
abbrev Range := List IndStr

namespace Range

/-- Loop of `initImpl` (range.h:215-251), `str` being the running stride. -/
def initFrom (str : Nat) : List Nat → Range
  | [] => []
  | d :: ds => ⟨d, str⟩ :: initFrom (str * d) ds

/-- `RangeT(inds)` / `init` (range.h:92-120, 255-261). -/
def init (ds : List Nat) : Range := initFrom 1 ds

/-- Loop of `computeStrides` (range.h:197-206). -/
def strides (str : Nat) : Range → Range
  | [] => []
  | r :: R => ⟨r.ind, str⟩ :: strides (str * r.ind) R

/-- `computeStrides` (range.h:197-206). -/
def computeStrides (R : Range) : Range := strides 1 R

/-- `dim(RangeT)` (range.h:492-504). -/
def dim (R : Range) : Nat := R.foldl (fun A r => A * r.ind) 1

/-- The extents `extent(0), extent(1), ...` (range.h:125-126). -/
def extents (R : Range) : List Nat := R.map (·.ind)

/-- Loop of `offsetImpl` (range.h:409-453): `I` is the running sum. Reading `stride(ri)` past the
order is undefined (an `Error` only in DEBUG builds). -/
def offsetLoop (start : Nat) : Range → List Nat → Int → Res Int
  | _, [], I => .ok I
  | [], _ :: _, _ => .ub
  | r :: R, i :: is, I => offsetLoop start R is (I + r.str * ((i : Int) - start))

/-- `offset(R,inds)` (range.h:467-490); for every kind of `inds` used here the overload
`choice<1>` is selected. -/
def offset (start : Nat) (R : Range) (inds : List Nat) : Res Int := offsetLoop start R inds 0

/-- `isContiguous` (range.h:535-548). -/
def isContiguous (R : Range) : Bool :=
  let p := R.foldl (fun (p : Int × Int) r => (p.1 + r.str * ((r.ind : Int) - 1), p.2 * r.ind)) (0, 1)
  1 + p.1 == p.2

/-- `normalRange` (range.h:508-516). -/
def normalRange (R : Range) : Range := computeStrides (R.map fun r => ⟨r.ind, 0⟩)

/-- Loop of `permuteRange` (slicerange.h:29-36): `R` is the part of the source from position `n`. -/
def permLoop : Range → List Nat → Range → Res Range
  | _, [], rb => .ok rb
  | [], _ :: _, _ => .ub
  | r :: R, p :: P, rb => if p < rb.length then permLoop R P (rb.set p r) else .ub

/-- `permuteRange` (slicerange.h:23-37): the builder has `R.order()` default slots; slot `P[n]`
receives extent and stride `n`. -/
def permuteRange (R : Range) (P : List Nat) : Res Range :=
  permLoop R P (List.replicate R.length {})

/-- `permuteExtents` (slicerange.h:48-61): as `permuteRange` with extents only, then strides are
computed by `build`. -/
def permuteExtents (R : Range) (P : List Nat) : Res Range :=
  (permLoop (R.map fun r => ⟨r.ind, 0⟩) P (List.replicate R.length {})).map computeStrides

/-- `subTensor` (sliceten.h:56-88): offset added to the data pointer and the range of the view.
Sizes of `start` and `stop` are those of the range (checked in DEBUG). -/
def subTensor : Range → List Nat → List Nat → Nat × Range
  | r :: R, st :: start, sp :: stop =>
    let q := subTensor R start stop
    (r.str * st + q.1, ⟨sp - st, r.str⟩ :: q.2)
  | _, _, _ => (0, [])

/-- `subIndex` (sliceten.h:90-106). -/
def subIndex (R : Range) (ind start stop : Nat) : Res (Nat × Range) :=
  match R[ind]? with
  | none => .ub
  | some r => .ok (r.str * start, R.set ind ⟨stop - start, r.str⟩)

/-- `groupIndsRange` (slicerange.h:63-78), for `istart ≤ iend ≤ order`. -/
def groupIndsRange (R : Range) (istart iend : Nat) : Res Range :=
  if !R.isContiguous then .throw
  else .ok <| computeStrides <|
    (R.take istart).map (fun r => ⟨r.ind, 0⟩) ++
    [⟨((R.drop istart).take (iend - istart)).foldl (fun g r => g * r.ind) 1, 0⟩] ++
    (R.drop iend).map (fun r => ⟨r.ind, 0⟩)

end Range

/-! ## RangeIter -/

/-- `numeric_limits<size_t>::max()`, the "done" value of `off_` (rangeiter.h:74, 126, 135). -/
def offMax : Int := 2 ^ 64 - 1

/-- State of a `RangeIter` (rangeiter.h:35-39) over a given range. -/
structure RIter where
  off : Int
  ind : List Nat
  deriving DecidableEq, Repr

namespace RIter

/-- `RangeIter(R)` (rangeiter.h:46-50). -/
def begin (start : Nat) (R : Range) : RIter := ⟨0, List.replicate R.length start⟩

/-- `notDone` (rangeiter.h:71-75); also the test `it != end` of a range-for loop. -/
def notDone (s : RIter) : Bool := s.off != offMax

/-- The loop of `increment` (rangeiter.h:117-126). `prev` is entry `n-1` of the range and `ip` the
value of `ind_[n-1]`, `R` and `is` the entries from `n` on. Returns `ind_` from `n-1` on and `off_`. -/
def carry (start : Nat) (prev : IndStr) (ip : Nat) : Range → List Nat → Int → Res (List Nat × Int)
  | [], is, _ => .ok (ip :: is, offMax)
  | _ :: _, [], _ => .ub
  | r :: R, i :: is, off =>
    let off' := off - prev.ind * prev.str + r.str
    if i + 1 - start < r.ind then .ok (start :: (i + 1) :: is, off')
    else (carry start r (i + 1) R is off').map fun q => (start :: q.1, q.2)

/-- `increment` (rangeiter.h:105-128); order 0 is undefined (an `Error` in DEBUG builds). -/
def increment (start : Nat) (R : Range) (s : RIter) : Res RIter :=
  match R, s.ind with
  | r0 :: R', i0 :: is =>
    let off := s.off + r0.str
    if i0 + 1 - start = r0.ind then (carry start r0 (i0 + 1) R' is off).map fun q => ⟨q.2, q.1⟩
    else .ok ⟨off, (i0 + 1) :: is⟩
  | _, _ => .ub

/-- `for(auto& i : R)`: the list of states visited, for at most `fuel` evaluations of the loop
condition (`none`: still running). -/
def forEach (start : Nat) (R : Range) : Nat → RIter → Option (Res (List RIter))
  | 0, _ => none
  | fuel + 1, s =>
    if s.notDone then
      match increment start R s with
      | .ok s' => (forEach start R fuel s').map (·.map (s :: ·))
      | .throw => some .throw
      | .ub => some .ub
    else some (.ok [])

end RIter

/-! ## GCounter -/

/-- State of a `GCounter` (gcounter.h:31-43): `first`, `last` and `i` as lists from `mini()` to
`maxi()`, and the position `ind`. -/
structure GCounter where
  first : List Int
  last : List Int
  i : List Int
  ind : Int
  deriving DecidableEq, Repr

namespace GCounter

/-- `GCounter(nind)` followed by `setRange(j,0,ds[j]-1)` for every `j` (gcounter.h:46-75), the way
it is used in contract.h, contract.cc, dense.cc and qdense.cc. -/
def ofExtents (ds : List Nat) : GCounter :=
  ⟨ds.map fun _ => 0, ds.map fun (d : Nat) => (d : Int) - 1, ds.map fun _ => 0, 0⟩

/-- `setRange` (gcounter.h:68-75). -/
def setRange (g : GCounter) (j : Nat) (s e : Int) : GCounter :=
  ⟨g.first.set j s, g.last.set j e, g.i.set j s, 0⟩

/-- The loop of `operator++` (gcounter.h:93-98). `f0` is `first[j-1]`, `x` the value of `i[j-1]`, the
lists are the entries from `j` on. `none`: the loop ran to the end. Returns `i` from `j-1` on
and whether the loop returned early. -/
def carry (f0 x : Int) : List Int → List Int → List Int → Res (List Int × Bool)
  | [], [], [] => .ok ([x], false)
  | f :: fs, l :: ls, i :: is =>
    if i + 1 ≤ l then .ok (f0 :: (i + 1) :: is, true)
    else (carry f (i + 1) fs ls is).map fun q => (f0 :: q.1, q.2)
  | _, _, _ => .ub

/-- `operator++` (gcounter.h:84-102); with no indices `i[mi]` is out of bounds. -/
def incr (g : GCounter) : Res GCounter :=
  match g.first, g.last, g.i with
  | f :: fs, l :: ls, i :: is =>
    if i + 1 > l then
      (carry f (i + 1) fs ls is).map fun q =>
        ⟨g.first, g.last, if q.2 then q.1 else q.1.set 0 (f - 1), g.ind + 1⟩
    else .ok ⟨g.first, g.last, (i + 1) :: is, g.ind + 1⟩
  | _, _, _ => .ub

/-- `notDone` (gcounter.h:107-111). -/
def notDone (g : GCounter) : Res Bool :=
  match g.first, g.i with
  | f :: _, i :: _ => .ok (decide (i ≥ f))
  | _, _ => .ub

/-- `for(; C.notDone(); ++C)`: the states visited, with at most `fuel` evaluations of the
condition. -/
def forEach : Nat → GCounter → Option (Res (List GCounter))
  | 0, _ => none
  | fuel + 1, g =>
    match g.notDone with
    | .ok true =>
      match g.incr with
      | .ok g' => (forEach fuel g').map (·.map (g :: ·))
      | .throw => some .throw
      | .ub => some .ub
    | .ok false => some (.ok [])
    | .throw => some .throw
    | .ub => some .ub

end GCounter

end Verif.Tensor
