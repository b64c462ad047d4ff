import Verif.AutoMPO.Exact

/-!
# Model of the conversion of an `AutoMPO` to the exponential of its sum

Sources: `/repo/itensor/mps/autompo.cc` (`toExpH_ZW1`, `toExpH`).

As in the model of the exact conversion, the tensors are given by their elements: `el name n` is the element of
`sites.op(name,n)` for the fixed values of the site index and the primed site index of site `n`. The quantum numbers only
give the order of the bases, see `ExpBases`, and errors of operators whose elements do not agree with the quantum numbers
of the links are not modelled.
-/

namespace Verif.AutoMPO

variable {K : Type*} [CommRing K]

/-- The element of `basis` for one link (autompo.cc:1525-1550), before the sort. -/
def expBasis (terms : List (HTerm K)) (n : Nat) : List SiteTerm :=
  terms.foldl (fun b t => if t.first.i ≤ (n : Int) ∧ (n : Int) < t.last.i ∧ t.first ∉ b then b ++ [t.first] else b) [IL]

/-- The bases after the sort (autompo.cc:1552-1564): each is some permutation of itself. -/
def ExpBases (terms : List (HTerm K)) (N : Nat) (b : Nat → List SiteTerm) : Prop := ∀ n ≤ N, (b n).Perm (expBasis terms n)

/-- What is added to the tensor of site `n` for the row `r` and the column `c` (autompo.cc:1620-1675). -/
def expEntry (el : Name → Nat → K) (terms : List (HTerm K)) (tau : K) (n : Nat) (r c : SiteTerm) : K :=
  (if c.i = (n : Int) ∧ r = IL then el (startTerm c.op) n * -tau else 0) +
  (if c = r then if fermiName c.op then el nF n else el nId n else 0) +
  (if c = IL then
    (((byN terms n).filter fun t => r = t.first ∧ t.last.i = (n : Int)).map fun t => t.coef * el (endTerm t.last.op) n).sum
    else 0) +
  (if r = IL ∧ c = IL then
    (((byN terms n).filter fun t => t.first.i = t.last.i).map fun t => t.coef * el t.first.op n * -tau).sum
    else 0)

/-- The product of the vector `v` over the rows with the matrix of site `n`. -/
def expVecMul (el : Name → Nat → K) (terms : List (HTerm K)) (tau : K) (n : Nat) (v : List K) (rows cols : List SiteTerm) :
    List K :=
  cols.map fun c => (List.zipWith (fun x r => x * expEntry el terms tau n r c) v rows).sum

/-- `setElt(links(0)(1))` times the tensors of the sites `1` to `n` (autompo.cc:1678). -/
def expProduct (el : Name → Nat → K) (terms : List (HTerm K)) (tau : K) (b : Nat → List SiteTerm) : Nat → List K
  | 0 => (List.range (b 0).length).map fun k => if k = 0 then 1 else 0
  | n + 1 => expVecMul el terms tau (n + 1) (expProduct el terms tau b n) (b n) (b (n + 1))

/-- The element of the result of `toExpH_ZW1` (autompo.cc:1499-1683) for the given values of the site indices. A term
without operators is undefined behaviour, and `at` throws for sites out of range. -/
def expElement (el : Name → Nat → K) (terms : List (HTerm K)) (tau : K) (N : Nat) (b : Nat → List SiteTerm) : Res K :=
  if terms.any (fun t => t.ops.length > 2) then .throw
  else if terms.any (fun t => t.ops.length = 0) then .ub
  else if terms.any (fun t => t.ops.any fun st => st.i < 0 ∨ (N : Int) < st.i) then .throw
  else .ok ((expProduct el terms tau b N).headD 0)

/-- `toExpH` (autompo.cc:1686-1701): `approx` is the argument `"Approx"`, `none` if it is not given. -/
def toExpH (approx : Option String) (el : Name → Nat → K) (terms : List (HTerm K)) (tau : K) (N : Nat)
    (b : Nat → List SiteTerm) : Res K :=
  if approx.getD "ZW1" = "ZW1" then expElement el terms tau N b else .throw

end Verif.AutoMPO
