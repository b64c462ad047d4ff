import Mathlib.Algebra.BigOperators.Group.List.Basic
import Verif.AutoMPO.Terms

/-!
# Model of the exact conversion of an `AutoMPO` to a matrix product operator

Sources: `/repo/itensor/mps/autompo.cc` (`startTerm`, `endTerm`, `toMPOImpl`).

The tensors are given by their elements: for each site, one value of the site index and one of the primed site index are
fixed, and `el name n` is the element of `sites.op(name,n)` for these values. What remains of the tensor of site `n` is a
matrix whose rows and columns are the elements of the bases `n-1` and `n`. The model is of site indices without quantum
numbers. With quantum numbers, the only difference for the elements is the order of the bases: see `Bases`.
-/

namespace Verif.AutoMPO

variable {K : Type*} [CommRing K]

/-- Names of operators. -/
def nF : Name := ['F']
def nId : Name := ['I', 'd']
def nA : Name := ['A']
def nAdag : Name := ['A', 'd', 'a', 'g']
def nAup : Name := ['A', 'u', 'p']
def nAdagup : Name := ['A', 'd', 'a', 'g', 'u', 'p']
def nAdn : Name := ['A', 'd', 'n']
def nAdagdn : Name := ['A', 'd', 'a', 'g', 'd', 'n']
def nC : Name := ['C']
def nCdag : Name := ['C', 'd', 'a', 'g']
def nCup : Name := ['C', 'u', 'p']
def nCdagup : Name := ['C', 'd', 'a', 'g', 'u', 'p']
def nCdn : Name := ['C', 'd', 'n']
def nCdagdn : Name := ['C', 'd', 'a', 'g', 'd', 'n']
def nFup : Name := ['F', 'u', 'p']
def nFdn : Name := ['F', 'd', 'n']

/-- `a + "*" + b`. -/
def star (a b : Name) : Name := a ++ '*' :: b

/-- The search in a table of pairs of names (autompo.cc:518-521). -/
def rewriteName (tab : List (Name × Name)) (op : Name) : Name :=
  match tab.find? fun p => p.1 = op with
  | some p => p.2
  | none => op

/-- `startTerm` (autompo.cc:505-523). -/
def startTerm : Name → Name := rewriteName
  [(nCdagup, star nAdagup nF), (nCup, star nAup nF), (nCdagdn, nAdagdn), (nCdn, nAdn), (nC, star nA nF), (nCdag, nAdag)]

/-- `endTerm` (autompo.cc:525-543). -/
def endTerm : Name → Name := rewriteName
  [(nCup, nAup), (nCdagup, nAdagup), (nCdn, star nF nAdn), (nCdagdn, star nF nAdagdn), (nC, nA), (nCdag, nAdag)]

/-- `IL` and `HL` (autompo.cc:569-570). -/
def IL : SiteTerm := ⟨['I', 'L'], 0⟩
def HL : SiteTerm := ⟨['H', 'L'], 0⟩

/-- `HTerm::first` and `HTerm::last` (autompo.h:113-117), for terms with operators. -/
def HTerm.first (t : HTerm K) : SiteTerm := t.ops.headD ⟨[], 0⟩
def HTerm.last (t : HTerm K) : SiteTerm := t.ops.getLastD ⟨[], 0⟩

/-- The element of `basis` for one link (autompo.cc:572-611), before the sort. -/
def basis (terms : List (HTerm K)) (N n : Nat) : List SiteTerm :=
  terms.foldl (fun b t => if t.first.i ≤ (n : Int) ∧ (n : Int) ≤ t.last.i ∧ t.first ∉ b then b ++ [t.first] else b)
    ((if n < N then [IL] else []) ++ if 1 ≤ n then [HL] else [])

/-- The bases after the sort (autompo.cc:613-623). Without quantum numbers nothing is sorted. With quantum numbers each
basis is some permutation of itself: `std::sort` does not say which of those ordered by the quantum numbers. -/
def Bases (terms : List (HTerm K)) (N : Nat) (b : Nat → List SiteTerm) : Prop := ∀ n ≤ N, (b n).Perm (basis terms N n)

/-- The order of `std::sort` of a basis (autompo.cc:615-622), where `q` gives the quantum numbers and `less` their order. -/
def qnComp {Q : Type*} [DecidableEq Q] (zero : Q) (less : Q → Q → Bool) (q : SiteTerm → Q) (a b : SiteTerm) : Bool :=
  if q a = zero ∧ q b ≠ zero then true
  else if q b = zero ∧ q a ≠ zero then false
  else less (q a) (q b)

/-- `ht_by_n.at(n)` (autompo.cc:668-673). -/
def byN (terms : List (HTerm K)) (n : Nat) : List (HTerm K) :=
  terms.flatMap fun t => (t.ops.filter fun st => st.i = (n : Int)).map fun _ => t

/-- What is added to the tensor of site `n` for the row `r` and the column `c` (autompo.cc:684-806). -/
def entry (el : Name → Nat → K) (terms : List (HTerm K)) (n : Nat) (r c : SiteTerm) : K :=
  (if c.i = (n : Int) ∧ r = IL then el (startTerm c.op) n else 0) +
  (if c = r then if fermiName c.op then el nF n else el nId n else 0) +
  (if c = HL then
    (((byN terms n).filter fun t => r = t.first ∧ t.last.i = (n : Int)).map fun t => t.coef * el (endTerm t.last.op) n).sum
    else 0) +
  (if r = IL ∧ c = HL then
    (((byN terms n).filter fun t => t.first.i = t.last.i).map fun t => t.coef * el t.first.op n).sum
    else 0)

/-- The product of the vector `v` over the rows with the matrix of site `n`. -/
def vecMul (el : Name → Nat → K) (terms : List (HTerm K)) (n : Nat) (v : List K) (rows cols : List SiteTerm) : List K :=
  cols.map fun c => (List.zipWith (fun x r => x * entry el terms n r c) v rows).sum

/-- `setElt(links(0)(1))` times the tensors of the sites `1` to `n` (autompo.cc:823). -/
def product (el : Name → Nat → K) (terms : List (HTerm K)) (b : Nat → List SiteTerm) : Nat → List K
  | 0 => (List.range (b 0).length).map fun k => if k = 0 then 1 else 0
  | n + 1 => vecMul el terms (n + 1) (product el terms b n) (b n) (b (n + 1))

/-- The element of the result of `toMPOImpl` (autompo.cc:548-829) for the given values of the site indices. A term without
operators is undefined behaviour (`front` of an empty vector, autompo.cc:590), and `at` throws for sites out of range. -/
def exactElement (el : Name → Nat → K) (terms : List (HTerm K)) (N : Nat) (b : Nat → List SiteTerm) : Res K :=
  if terms.any (fun t => t.ops.length > 2) then .throw
  else if terms.any (fun t => t.ops.length = 0) then .ub
  else if terms.any (fun t => t.ops.any fun st => st.i < 0 ∨ (N : Int) < st.i) then .throw
  else .ok ((product el terms b N).headD 0)

end Verif.AutoMPO
