import Mathlib.Algebra.Star.Basic
import Mathlib.Algebra.BigOperators.Group.List.Basic
import Verif.AutoMPO.Sites

/-!
# Model of the default conversion of an `AutoMPO` to a matrix product operator

Sources: `/repo/itensor/mps/autompo.cc` (`toMatrix`, `posInBlock`, `partitionHTerms`, `compressMPO`, `constructMPOTensors`,
`svdMPO`).

As in `Exact.lean`, the values of all site indices are fixed: `el prod n` is the element of the product of the operators
`prod` on site `n`. The quantum numbers are the elements of any additive monoid `Q`; for sites without quantum numbers all
are zero. A block of a link is the pair of its number in the chain and its quantum number. An element of a link index is the
pair of its quantum number and its place in the block: the block of zero is the first, so the elements 1 and 2 of a link are
the places 0 and 1 of this block. `QNblockSize` throws if a link has no block with the quantum number of an element, which is
so for terms with flux only and is not modelled.
-/

namespace Verif.AutoMPO

variable {K : Type*} [CommRing K] [StarRing K] {Q : Type*} [AddCommMonoid Q] [DecidableEq Q]

/-- `IQMPOMatElem` (autompo.cc:835-872), with `none` for the row or the column -1. -/
structure Elem (Q K : Type*) where
  rowqn : Q
  colqn : Q
  row : Option Nat
  col : Option Nat
  coef : K
  ops : List SiteTerm

/-- The variables `qbs` and `tempMPO` (autompo.cc:986-987). The maps of `qbs` are given by the list of their keys and by
functions for the fields of `BasisBlock` (autompo.cc:936-943); a basis is the list of its elements by their positions. Links
are numbered by the site on their left: `qbs.at(n-1)` is the link `n`. -/
structure Parts (Q K : Type*) where
  keys : Nat → List Q
  left : Nat → Q → List (List SiteTerm)
  right : Nat → Q → List (List SiteTerm)
  mat : Nat → Q → List ((Nat × Nat) × K)
  temp : Nat → List (Elem Q K)

/-- Nothing. -/
def Parts.empty : Parts Q K := ⟨fun _ => [], fun _ _ => [], fun _ _ => [], fun _ _ => [], fun _ => []⟩

/-- A change of one block. -/
def upd {X : Type*} (f : Nat → Q → X) (n : Nat) (q : Q) (x : X) : Nat → Q → X :=
  fun n' q' => if n' = n ∧ q' = q then x else f n' q'

/-- The insertion of a new element of a list at its end. -/
def ins {X : Type*} [DecidableEq X] (x : X) (b : List X) : List X := if x ∈ b then b else b ++ [x]

/-- `posInBlock` (autompo.cc:952-961): the basis after the call and the returned position. -/
def pos (x : List SiteTerm) (b : List (List SiteTerm)) : List (List SiteTerm) × Nat :=
  if x ∈ b then (b, b.idxOf x) else (b ++ [x], b.length)

/-- The key which `operator[]` of the map of a link makes if it is new. -/
def touch (s : Parts Q K) (n : Nat) (q : Q) : Parts Q K :=
  { s with keys := fun n' => if n' = n then ins q (s.keys n') else s.keys n' }

/-- `posInBlock<T>(x, qbs.at(n-1)[q].right)`. -/
def addRight (s : Parts Q K) (n : Nat) (q : Q) (x : List SiteTerm) : Parts Q K × Nat :=
  let p := pos x (s.right n q)
  ({ touch s n q with right := upd s.right n q p.1 }, p.2)

/-- `posInBlock<T>(x, qbs.at(n-1)[q].left)`. -/
def addLeft (s : Parts Q K) (n : Nat) (q : Q) (x : List SiteTerm) : Parts Q K × Nat :=
  let p := pos x (s.left n q)
  ({ touch s n q with left := upd s.left n q p.1 }, p.2)

/-- `qbs.at(n-1)[q].mat.emplace_back(MatIndex(l,j),x)`. -/
def addMat (s : Parts Q K) (n : Nat) (q : Q) (l j : Nat) (x : K) : Parts Q K :=
  { s with mat := upd s.mat n q (s.mat n q ++ [((l, j), x)]) }

/-- The elements are the same for the comparison of `std::set` (autompo.cc:853-871, 236-241), where `near` compares
coefficients up to 1E-12. -/
def Elem.same (near : K → K → Bool) (a b : Elem Q K) : Bool :=
  a.row = b.row ∧ a.col = b.col ∧ a.rowqn = b.rowqn ∧ a.colqn = b.colqn ∧ near a.coef b.coef = true ∧ a.ops = b.ops

/-- The insertion in `tempMPO.at(n-1)` (autompo.cc:1093-1112). -/
def addElem (near : K → K → Bool) (s : Parts Q K) (n : Nat) (e : Elem Q K) : Parts Q K :=
  { s with temp := fun n' => if n' = n then if (s.temp n').any (e.same near) then s.temp n' else s.temp n' ++ [e]
                             else s.temp n' }

/-- `calcQN` (autompo.cc:1022-1033), where `qn` is minus the divergence of an operator. -/
def calcQN (qn : SiteTerm → Q) (prod : List SiteTerm) : Q := (prod.map qn).sum

/-- One step of the loop of `partitionHTerms` (autompo.cc:1040-1113). -/
def visit (qn : SiteTerm → Q) (near : K → K → Bool) (s : Parts Q K) (v : HTerm K × Nat) : Res (Parts Q K) :=
  let d := decomposeTerm (v.2 : Int) v.1.ops
  let lqn := calcQN qn d.1
  let sqn := calcQN qn d.2.1
  let r : Parts Q K × Option Nat × Option Nat :=
    if d.1 = [] then
      if d.2.2 = [] then (s, none, none)
      else
        let p := addRight s v.2 sqn d.2.2
        (p.1, none, some p.2)
    else
      let p : Parts Q K × Nat × Option Nat :=
        if d.2.2 = [] then
          let p := addRight s (v.2 - 1) lqn d.2.1
          (p.1, p.2, none)
        else
          let p := addRight s (v.2 - 1) lqn (d.2.1 ++ d.2.2)
          let p' := addRight p.1 v.2 (lqn + sqn) d.2.2
          (p'.1, p.2, some p'.2)
      let l := addLeft p.1 (v.2 - 1) lqn d.1
      (addMat l.1 (v.2 - 1) lqn l.2 p.2.1 v.1.coef, some p.2.1, p.2.2)
  (onsiteOps (v.2 : Int) v.1.ops).bind fun ops =>
    .ok (addElem near r.1 v.2 ⟨lqn, lqn + sqn, r.2.1, r.2.2, if r.2.1 = none then v.1.coef else 1, ops⟩)

/-- The sites from the first to the last operator of a term, with the term. -/
def visitsOf (t : HTerm K) : List (HTerm K × Nat) :=
  (List.range' t.first.i.toNat (t.last.i.toNat + 1 - t.first.i.toNat)).map fun n => (t, n)

/-- `partitionHTerms` (autompo.cc:981-1115). -/
def partition (qn : SiteTerm → Q) (near : K → K → Bool) (terms : List (HTerm K)) : Res (Parts Q K) :=
  Res.foldM (visit qn near) Parts.empty (terms.flatMap visitsOf)

/-- The element of `toMatrix` (autompo.cc:898-916): the last assignment counts. -/
def toMatrix (mat : List ((Nat × Nat) × K)) (r c : Nat) : K :=
  mat.foldl (fun x e => if e.1 = (r, c) then e.2 else x) 0

/-- The numbers of rows and columns of `toMatrix`. -/
def nrows (mat : List ((Nat × Nat) × K)) : Nat := mat.foldl (fun x e => max x (1 + e.1.1)) 0
def ncols (mat : List ((Nat × Nat) × K)) : Nat := mat.foldl (fun x e => max x (1 + e.1.2)) 0

/-- What `SVD` and `truncate` give for the blocks of the links (autompo.cc:1205-1226): the number of singular values which
are kept, and the elements of `V`. -/
abbrev Svd (Q K : Type*) := Nat → Q → Nat × (Nat → Nat → K)

/-- `rowShift` and `colShift` (autompo.cc:1303-1304). -/
def shift (q : Q) : Nat := if q = 0 then 2 else 0

/-- What an element of `tempMPO.at(n-1)` adds to the place `r`, `c` of the matrix of its operators
(autompo.cc:1308-1345). -/
def contribution (svd : Svd Q K) (n : Nat) (e : Elem Q K) (r c : Q × Nat) : K :=
  if r.1 = e.rowqn ∧ c.1 = e.colqn then
    match e.row, e.col with
    | none, none => if r.2 = 1 ∧ c.2 = 0 then e.coef else 0
    | none, some k =>
      if r.2 = 1 ∧ shift e.colqn ≤ c.2 ∧ c.2 < shift e.colqn + (svd n e.colqn).1 then
        e.coef * (svd n e.colqn).2 k (c.2 - shift e.colqn) else 0
    | some j, none =>
      if (shift e.rowqn ≤ r.2 ∧ r.2 < shift e.rowqn + (svd (n - 1) e.rowqn).1) ∧ c.2 = 0 then
        e.coef * Star.star ((svd (n - 1) e.rowqn).2 j (r.2 - shift e.rowqn)) else 0
    | some j, some k =>
      if (shift e.rowqn ≤ r.2 ∧ r.2 < shift e.rowqn + (svd (n - 1) e.rowqn).1) ∧
          shift e.colqn ≤ c.2 ∧ c.2 < shift e.colqn + (svd n e.colqn).1 then
        e.coef * Star.star ((svd (n - 1) e.rowqn).2 j (r.2 - shift e.rowqn)) * (svd n e.colqn).2 k (c.2 - shift e.colqn) else 0
  else 0

/-- The element of the tensor of site `n` (autompo.cc:1258-1347, 1380-1406). The code first sums the elements with the same
operators, and then multiplies each sum with its operators; here each element is multiplied with its operators. `tiny` is
`isZero(coef,1E-14)`. -/
def svdEntry (el : List SiteTerm → Nat → K) (tiny : K → Bool) (svd : Svd Q K) (s : Parts Q K) (n : Nat) (r c : Q × Nat) : K :=
  (if r = c ∧ (r = (0, 0) ∨ r = (0, 1)) then el [⟨nId, (n : Int)⟩] n else 0) +
  (((s.temp n).filter fun e => !tiny e.coef).map fun e => contribution svd n e r c * el e.ops n).sum

/-- The elements of the link `n` (autompo.cc:1228-1253). -/
def states (svd : Svd Q K) (s : Parts Q K) (n : Nat) : List (Q × Nat) :=
  [(0, 0), (0, 1)] ++ (s.keys n).flatMap fun q => (List.range (svd n q).1).map fun i => (q, i + shift q)

/-- `setElt(links(0)(2))` times the tensors of the sites `1` to `n` (autompo.cc:1416). -/
def svdVec (el : List SiteTerm → Nat → K) (tiny : K → Bool) (svd : Svd Q K) (s : Parts Q K) : Nat → Q × Nat → K
  | 0, x => if x = (0, 1) then 1 else 0
  | n + 1, x => ((states svd s n).map fun r => svdVec el tiny svd s n r * svdEntry el tiny svd s (n + 1) r x).sum

/-- The element of the result of `svdMPO` (autompo.cc:1423-1482) for the given values of the site indices. A term without
operators is undefined behaviour (`front` of an empty vector), and `at` throws for sites out of range. -/
def svdElement (qn : SiteTerm → Q) (near : K → K → Bool) (el : List SiteTerm → Nat → K) (tiny : K → Bool)
    (svd : Svd Q K) (terms : List (HTerm K)) (N : Nat) : Res K :=
  if terms.any (fun t => t.ops.length = 0) then .ub
  else if terms.any (fun t => t.ops.any fun st => st.i < 1 ∨ (N : Int) < st.i) then .throw
  else (partition qn near terms).bind fun s => .ok (svdVec el tiny svd s N (0, 0))

end Verif.AutoMPO
