import Mathlib.Data.Complex.Basic
import Mathlib.Data.Real.Sqrt
import Mathlib.Analysis.SpecialFunctions.Trigonometric.Basic
import Mathlib.Data.Matrix.Mul
import Mathlib.LinearAlgebra.Matrix.ConjTranspose
import Mathlib.Algebra.Order.Floor.Ring
import Verif.Base

/-!
# Model of the indices and operators of the site types

Sources: `/repo/itensor/mps/sites/*.h`, `/repo/itensor/itensor_impl.h` (`ITensor::set`, `checkEltFluxInts`),
`/repo/itensor/itensor.cc` (`allocReal`).

An operator is the matrix of its elements: rows are the values of the primed site index, columns those of the site index.
Numbers are exact: `ISqrt2` is the real number 1/√2, `std::sqrt` the real square root, `cos` and `sin` the real functions.
-/

namespace Verif.Sites

/-- The quantum numbers of an index: the modulus of each name, and the values of the state `i` (from 1) in the same order.
All quantum numbers of one index have the same names, so that a `QN` (qn.h) is the list of its values. -/
structure QNs where
  mods : List Int
  vals : Nat → List Int

/-- A value reduced by its modulus, as `QNum::set` (qn.cc:10-30): only a modulus of absolute value above 1 reduces. -/
def red (m v : Int) : Int := if m.natAbs > 1 then v % (m.natAbs : Int) else v

/-- The flux of the element with value `i` of `dag(s)` and `j` of `prime(s)`, that is `qn(j) - qn(i)`
(itensor.cc:872-877, itensor_impl.h:313-319). -/
def QNs.flux (q : QNs) (i j : Nat) : List Int :=
  (q.mods.zip ((q.vals j).zip (q.vals i))).map fun p => red p.1 (p.2.1 - p.2.2)

section Build

variable {R : Type*} [Zero R] {d : Nat}

/-- The operator while it is filled: the flux of its storage, if there is one, and its elements. -/
abbrev Filling (R : Type*) (d : Nat) := Option (List Int) × Matrix (Fin d) (Fin d) R

/-- One element changed. Values of the indices are from 1. -/
def put (M : Matrix (Fin d) (Fin d) R) (i j : Nat) (x : R) : Matrix (Fin d) (Fin d) R :=
  fun r c => if i = c.val + 1 ∧ j = r.val + 1 then x else M r c

/-- `Op.set(s(i),sP(j),x)` (itensor_impl.h:335-371): the first call makes the storage with the flux of its element
(itensor.cc:864-880), each call checks the flux (itensor_impl.h:307-330). -/
def set (q : Option QNs) (st : Filling R d) (p : Nat × Nat × R) : Res (Filling R d) :=
  match q with
  | none => .ok (st.1, put st.2 p.1 p.2.1 p.2.2)
  | some q =>
    let f := st.1.getD (q.flux p.1 p.2.1)
    if q.flux p.1 p.2.1 ≠ f then .throw else .ok (some f, put st.2 p.1 p.2.1 p.2.2)

/-- The `op` method of a site: `Op = ITensor(dag(s),sP)` (no storage yet, read as zero) and the calls of `set` for the
name, an unknown name throws. `q` are the quantum numbers of the index, `none` for an index without. -/
def op (d : Nat) (q : Option QNs) (tab : String → Option (List (Nat × Nat × R))) (name : String) :
    Res (Matrix (Fin d) (Fin d) R) :=
  match tab name with
  | none => .throw
  | some l => (Res.foldM (set q) (none, fun _ _ => 0) l).map Prod.snd

end Build

/-- Values of states given as a list. -/
def vals (l : List (List Int)) (i : Nat) : List Int := l.getD (i - 1) []

/-! ## CustomSpin (sites/customspin.h) -/

/-- `std::round`: half away from zero. -/
noncomputable def roundC (x : ℝ) : Int := if 0 ≤ x then ⌊x + 1 / 2⌋ else -⌊-x + 1 / 2⌋

/-- `DSmax` from the arguments "2S" and "S" (customspin.h:29-44). -/
noncomputable def customTwoS (twoS : Option Int) (s : Option ℝ) : Res Int :=
  (match twoS, s with
  | some k, _ => .ok k
  | none, some s => .ok (roundC (2 * s + 1 / 100))
  | none, none => .throw : Res Int).bind fun k => if k < 1 then .throw else .ok k

/-- The quantum numbers of the site (customspin.h:26-27, 53-73), arguments "ConserveQNs" and "ConserveSz". -/
def customQN (D : Nat) (cq csz : Option Bool) : Res (Option QNs) :=
  let conserveQNs := cq.getD true
  let conserveSz := csz.getD conserveQNs
  if conserveQNs then
    if conserveSz then .ok (some ⟨[1], fun i => [2 * ((i : Int) - 1) - D]⟩) else .ok (some ⟨[], fun _ => []⟩)
  else if conserveSz then .throw else .ok none

/-- `CustomSpinSite::state` (customspin.h:80-90): the state named "2Sz". -/
def customState (D : Nat) (name : String) : Res Nat :=
  match (List.range (D + 1)).find? fun n : Nat => name = toString (2 * (n : Int) - D) with
  | some n => .ok (1 + n)
  | none => .throw

/-- The variable `sz` of the loops (customspin.h:107, 116, 125, 150). -/
noncomputable def customSz (D i : Nat) : ℝ := -(D : ℝ) / 2 + i - 1

/-- The calls of `CustomSpinSite::op` (customspin.h:93-160). `dim(s) = D+1`. -/
noncomputable def customOp (D : Nat) (name : String) : Option (List (Nat × Nat × ℂ)) :=
  if name = "Sz" then some ((List.range' 1 (D + 1)).map fun i => (i, i, (customSz D i : ℂ)))
  else if name = "S+" then some ((List.range' 1 D).map fun i =>
    (i, i + 1, (Real.sqrt ((D / 2 - customSz D i) * (D / 2 + customSz D i + 1)) : ℂ)))
  else if name = "S-" then some ((List.range' 2 D).map fun i =>
    (i, i - 1, (Real.sqrt ((D / 2 + customSz D i) * (D / 2 - customSz D i + 1)) : ℂ)))
  else if name = "U+" then some ((List.range' 1 D).map fun i => (i, i + 1, 1))
  else if name = "U-" then some ((List.range' 2 D).map fun i => (i, i - 1, 1))
  else if name = "Sz2" then some ((List.range' 1 (D + 1)).map fun i => (i, i, ((customSz D i) ^ 2 : ℂ)))
  else none

/-! ## Boson (sites/boson.h) -/

/-- The quantum numbers of the site (boson.h:36-37, 48-68), arguments "ConserveQNs" and "ConserveNb". -/
def bosonQN (cq cnb : Option Bool) : Res (Option QNs) :=
  let conserveQNs := cq.getD true
  let conserveNb := cnb.getD conserveQNs
  if conserveQNs then
    if conserveNb then .ok (some ⟨[1], fun i => [(i : Int) - 1]⟩) else .ok (some ⟨[], fun _ => []⟩)
  else if conserveNb then .throw else .ok none

/-- The calls of `BosonSite::op` (boson.h:87-125). `dim(s) = maxOcc+1`. -/
noncomputable def bosonOp (maxOcc : Nat) (name : String) : Option (List (Nat × Nat × ℂ)) :=
  if name = "N" ∨ name = "n" then some ((List.range' 1 (1 + maxOcc)).map fun n => (n, n, (n : ℂ) - 1))
  else if name = "A" then some ((List.range' 1 maxOcc).map fun n => (1 + n, n, (Real.sqrt n : ℂ)))
  else if name = "Adag" then some ((List.range' 1 maxOcc).map fun n => (n, 1 + n, (Real.sqrt n : ℂ)))
  else none

/-! ## Spins with tables (sites/spinhalf.h, spinone.h, spintwo.h) -/

/-- The quantum numbers of `SpinHalfSite` (spinhalf.h:39-60), arguments "ConserveQNs", "ConserveSz", "ConserveParity". -/
def halfQN (cq csz cp : Option Bool) : Option QNs :=
  let conserveSz := csz.getD (cq.getD true)
  let conserveParity := cp.getD false
  if conserveSz ∧ conserveParity then some ⟨[1, 2], vals [[1, 1], [-1, 0]]⟩
  else if conserveSz then some ⟨[1], vals [[1], [-1]]⟩
  else if conserveParity then some ⟨[2], vals [[1], [0]]⟩
  else none

/-- `SpinHalfSite::state` (spinhalf.h:66-83). -/
def halfState (name : String) : Res Nat :=
  if name = "Up" then .ok 1 else if name = "Dn" then .ok 2 else .throw

/-- The calls of `SpinHalfSite::op` (spinhalf.h:85-174): 1 is Up, 2 is Dn. -/
noncomputable def halfOp (name : String) : Option (List (Nat × Nat × ℂ)) :=
  if name = "Sz" then some [(1, 1, 1 / 2), (2, 2, -1 / 2)]
  else if name = "Sx" then some [(1, 2, 1 / 2), (2, 1, 1 / 2)]
  else if name = "ISy" then some [(1, 2, -1 / 2), (2, 1, 1 / 2)]
  else if name = "Sy" then some [(1, 2, 1 / 2 * Complex.I), (2, 1, -1 / 2 * Complex.I)]
  else if name = "Sp" ∨ name = "S+" then some [(2, 1, 1)]
  else if name = "Sm" ∨ name = "S-" then some [(1, 2, 1)]
  else if name = "projUp" then some [(1, 1, 1)]
  else if name = "projDn" then some [(2, 2, 1)]
  else if name = "S2" then some [(1, 1, 3 / 4), (2, 2, 3 / 4)]
  else none

/-- The quantum numbers of `SpinOneSite` (spinone.h:53-64). -/
def oneQN (cq csz : Option Bool) : Option QNs :=
  if csz.getD (cq.getD true) then some ⟨[1], vals [[2], [0], [-2]]⟩ else none

/-- `SpinOneSite::state` (spinone.h:70-92). -/
def oneState (name : String) : Res Nat :=
  if name = "Up" ∨ name = "+" then .ok 1
  else if name = "Z0" ∨ name = "0" then .ok 2
  else if name = "Dn" ∨ name = "-" then .ok 3 else .throw

/-- `Sqrt2` and `ISqrt2` (real.h:27-28). -/
noncomputable def sqrt2 : ℂ := (Real.sqrt 2 : ℂ)
noncomputable def isqrt2 : ℂ := 1 / (Real.sqrt 2 : ℂ)

/-- The calls of `SpinOneSite::op` (spinone.h:94-230) for an index of dimension 3: 1 is Up, 2 is Z0, 3 is Dn.
The names "XUp", "XZ0", "XDn", which give states, are in `oneVec`. -/
noncomputable def oneOp (name : String) : Option (List (Nat × Nat × ℂ)) :=
  if name = "Sz" then some [(1, 1, 1), (3, 3, -1)]
  else if name = "Sx" then some [(1, 2, isqrt2), (2, 1, isqrt2), (2, 3, isqrt2), (3, 2, isqrt2)]
  else if name = "ISy" then some [(1, 2, -isqrt2), (2, 1, isqrt2), (2, 3, -isqrt2), (3, 2, isqrt2)]
  else if name = "Sy" then some [(1, 2, isqrt2 * Complex.I), (2, 1, -isqrt2 * Complex.I), (2, 3, isqrt2 * Complex.I),
    (3, 2, -isqrt2 * Complex.I)]
  else if name = "Sp" ∨ name = "S+" then some [(3, 2, sqrt2), (2, 1, sqrt2)]
  else if name = "Sm" ∨ name = "S-" then some [(1, 2, sqrt2), (2, 3, sqrt2)]
  else if name = "Sz2" then some [(1, 1, 1), (3, 3, 1)]
  else if name = "Sx2" then some [(1, 1, 1 / 2), (1, 3, 1 / 2), (2, 2, 1), (3, 3, 1 / 2), (3, 1, 1 / 2)]
  else if name = "Sy2" then some [(1, 1, 1 / 2), (1, 3, -1 / 2), (2, 2, 1), (3, 3, 1 / 2), (3, 1, -1 / 2)]
  else if name = "projUp" then some [(1, 1, 1)]
  else if name = "projZ0" then some [(2, 2, 1)]
  else if name = "projDn" then some [(3, 3, 1)]
  else if name = "S2" then some [(1, 1, 2), (3, 3, 2), (2, 2, 2)]
  else none

/-- The states along the x axis (spinone.h:190-214), for an index without quantum numbers. -/
noncomputable def oneVec (name : String) : Option (Fin 3 → ℂ) :=
  if name = "XUp" then some ![1 / 2, isqrt2, 1 / 2]
  else if name = "XZ0" then some ![isqrt2, 0, -isqrt2]
  else if name = "XDn" then some ![1 / 2, -isqrt2, 1 / 2]
  else none

/-- The quantum numbers of `SpinTwoSite` (spintwo.h:53-66). -/
def twoQN (cq csz : Option Bool) : Option QNs :=
  if csz.getD (cq.getD true) then some ⟨[1], vals [[4], [2], [0], [-2], [-4]]⟩ else none

/-- `SpinTwoSite::state` (spintwo.h:72-100). -/
def twoState (name : String) : Res Nat :=
  if name = "Up" ∨ name = "4" then .ok 1
  else if name = "Upi" ∨ name = "2" then .ok 2
  else if name = "Z0" ∨ name = "0" then .ok 3
  else if name = "Dni" ∨ name = "-2" then .ok 4
  else if name = "Dn" ∨ name = "-4" then .ok 5 else .throw

/-- `val1` and `val2` (spintwo.h:106-107). -/
noncomputable def val1 : ℂ := (Real.sqrt 6 : ℂ) / 2
noncomputable def val2 : ℂ := (Real.sqrt 6 : ℂ)

/-- The calls of `SpinTwoSite::op` (spintwo.h:102-247): 1 is Up, 2 Upi, 3 Z0, 4 Dni, 5 Dn. The last call for "S2" has the
value 4 of the primed index (spintwo.h:239). -/
noncomputable def twoOp (name : String) : Option (List (Nat × Nat × ℂ)) :=
  if name = "Sz" then some [(1, 1, 2), (2, 2, 1), (4, 4, -1), (5, 5, -2)]
  else if name = "Sx" then some [(1, 2, 1), (2, 1, 1), (2, 3, val1), (3, 2, val1), (3, 4, val1), (4, 3, val1), (4, 5, 1),
    (5, 4, 1)]
  else if name = "ISy" then some [(1, 2, -1), (2, 1, 1), (2, 3, -val1), (3, 2, val1), (3, 4, -val1), (4, 3, val1),
    (4, 5, -1), (5, 4, 1)]
  else if name = "Sy" then some [(1, 2, Complex.I), (2, 1, -Complex.I), (2, 3, val1 * Complex.I),
    (3, 2, -val1 * Complex.I), (3, 4, val1 * Complex.I), (4, 3, -val1 * Complex.I), (4, 5, Complex.I), (5, 4, -Complex.I)]
  else if name = "Sp" ∨ name = "S+" then some [(2, 1, 2), (3, 2, val2), (4, 3, val2), (5, 4, 2)]
  else if name = "Sm" ∨ name = "S-" then some [(1, 2, 2), (2, 3, val2), (3, 4, val2), (4, 5, 2)]
  else if name = "Sz2" then some [(1, 1, 4), (2, 2, 1), (4, 4, 1), (5, 5, 4)]
  else if name = "Sx2" then some [(1, 1, 1), (1, 3, val1), (2, 2, 5 / 2), (2, 4, 3 / 2), (3, 1, val1), (3, 3, 3),
    (3, 5, val1), (4, 2, 3 / 2), (4, 4, 5 / 2), (5, 3, val1), (5, 5, 1)]
  else if name = "Sy2" then some [(1, 1, 1), (1, 3, -val1), (2, 2, 5 / 2), (2, 4, -3 / 2), (3, 1, -val1), (3, 3, 3),
    (3, 5, -val1), (4, 2, -3 / 2), (4, 4, 5 / 2), (5, 3, -val1), (5, 5, 1)]
  else if name = "projUp" then some [(1, 1, 1)]
  else if name = "projUpi" then some [(2, 2, 1)]
  else if name = "projZ0" then some [(3, 3, 1)]
  else if name = "projDni" then some [(4, 4, 1)]
  else if name = "projDn" then some [(5, 5, 1)]
  else if name = "S2" then some [(1, 1, 6), (2, 2, 6), (3, 3, 6), (4, 4, 6), (5, 4, 6)]
  else none

/-! ## Fermions (sites/fermion.h, electron.h, tj.h) -/

/-- The quantum numbers of `FermionSite` (fermion.h:36-71), `n` is the number of the site. -/
def fermionQN (n : Int) (cq cnf oe : Option Bool) : Option QNs :=
  let conserveQNs := cq.getD true
  if ¬conserveQNs then none
  else if ¬oe.getD false then
    if cnf.getD conserveQNs then some ⟨[-1], vals [[0], [1]]⟩ else some ⟨[-2], vals [[0], [1]]⟩
  else if n.tmod 2 = 1 then some ⟨[1, -1], vals [[0, 0], [1, 1]]⟩ else some ⟨[1, -1], vals [[0, 0], [-1, 1]]⟩

/-- The calls of `FermionSite::op` (fermion.h:96-155): 1 is empty, 2 is occupied. -/
def fermionOp (name : String) : Option (List (Nat × Nat × ℚ)) :=
  if name = "N" ∨ name = "n" then some [(2, 2, 1)]
  else if name = "C" then some [(2, 1, 1)]
  else if name = "Cdag" then some [(1, 2, 1)]
  else if name = "A" then some [(2, 1, 1)]
  else if name = "Adag" then some [(1, 2, 1)]
  else if name = "F" ∨ name = "FermiPhase" then some [(1, 1, 1), (2, 2, -1)]
  else if name = "projEmp" then some [(1, 1, 1)]
  else if name = "projOcc" then some [(2, 2, 1)]
  else none

/-- The quantum numbers of `ElectronSite` (electron.h:41-78). -/
def electronQN (cq cnf csz : Option Bool) : Option QNs :=
  let conserveQNs := cq.getD true
  let conserveNf := cnf.getD conserveQNs
  let conserveSz := csz.getD conserveQNs
  if conserveQNs ∨ conserveNf ∨ conserveSz then
    if conserveNf ∧ conserveSz then some ⟨[1, -1], vals [[0, 0], [1, 1], [-1, 1], [0, 2]]⟩
    else if conserveNf then some ⟨[-1], vals [[0], [1], [1], [2]]⟩
    else if conserveSz then some ⟨[1, -2], vals [[0, 0], [1, 1], [-1, 1], [0, 0]]⟩
    else some ⟨[-2], vals [[0], [1], [1], [0]]⟩
  else none

/-- The calls of `ElectronSite::op` (electron.h:113-254): 1 is empty, 2 Up, 3 Dn, 4 both. -/
def electronOp (name : String) : Option (List (Nat × Nat × ℚ)) :=
  if name = "Nup" then some [(2, 2, 1), (4, 4, 1)]
  else if name = "Ndn" then some [(3, 3, 1), (4, 4, 1)]
  else if name = "Nupdn" then some [(4, 4, 1)]
  else if name = "Ntot" then some [(2, 2, 1), (3, 3, 1), (4, 4, 2)]
  else if name = "Cup" then some [(2, 1, 1), (4, 3, 1)]
  else if name = "Cdagup" then some [(1, 2, 1), (3, 4, 1)]
  else if name = "Cdn" then some [(3, 1, 1), (4, 2, -1)]
  else if name = "Cdagdn" then some [(1, 3, 1), (2, 4, -1)]
  else if name = "Aup" then some [(2, 1, 1), (4, 3, 1)]
  else if name = "Adagup" then some [(1, 2, 1), (3, 4, 1)]
  else if name = "Adn" then some [(3, 1, 1), (4, 2, 1)]
  else if name = "Adagdn" then some [(1, 3, 1), (2, 4, 1)]
  else if name = "FermiPhase" ∨ name = "F" then some [(1, 1, 1), (2, 2, -1), (3, 3, -1), (4, 4, 1)]
  else if name = "Fup" then some [(1, 1, 1), (2, 2, -1), (3, 3, 1), (4, 4, -1)]
  else if name = "Fdn" then some [(1, 1, 1), (2, 2, 1), (3, 3, -1), (4, 4, -1)]
  else if name = "Sz" then some [(2, 2, 1 / 2), (3, 3, -1 / 2)]
  else if name = "S+" then some [(3, 2, 1)]
  else if name = "S-" then some [(2, 3, 1)]
  else if name = "S2" then some [(2, 2, 3 / 4), (3, 3, 3 / 4)]
  else none

/-- The quantum numbers of `tJSite` (tj.h:41-72). -/
def tjQN (cq cnf csz : Option Bool) : Option QNs :=
  let conserveQNs := cq.getD true
  let conserveNf := cnf.getD conserveQNs
  let conserveSz := csz.getD conserveQNs
  let up : Int := if conserveSz then 1 else 0
  let dn := -up
  if conserveQNs ∨ conserveNf ∨ conserveSz then
    if conserveNf then some ⟨[1, -1], vals [[0, 0], [up, 1], [dn, 1]]⟩
    else if conserveSz then some ⟨[1, -2], vals [[0, 0], [1, 1], [-1, 1]]⟩
    else some ⟨[-2], vals [[0], [1], [1]]⟩
  else none

/-- The calls of `tJSite::op` (tj.h:102-221): 1 is empty, 2 Up, 3 Dn. -/
def tjOp (name : String) : Option (List (Nat × Nat × ℚ)) :=
  if name = "Nup" then some [(2, 2, 1)]
  else if name = "Ndn" then some [(3, 3, 1)]
  else if name = "Ntot" then some [(2, 2, 1), (3, 3, 1)]
  else if name = "Cup" then some [(2, 1, 1)]
  else if name = "Cdagup" then some [(1, 2, 1)]
  else if name = "Cdn" then some [(3, 1, 1)]
  else if name = "Cdagdn" then some [(1, 3, 1)]
  else if name = "Aup" then some [(2, 1, 1)]
  else if name = "Adagup" then some [(1, 2, 1)]
  else if name = "Adn" then some [(3, 1, 1)]
  else if name = "Adagdn" then some [(1, 3, 1)]
  else if name = "FermiPhase" ∨ name = "F" then some [(1, 1, 1), (2, 2, -1), (3, 3, -1)]
  else if name = "Fup" then some [(1, 1, 1), (2, 2, -1), (3, 3, 1)]
  else if name = "Fdn" then some [(1, 1, 1), (2, 2, 1), (3, 3, -1)]
  else if name = "Sz" then some [(2, 2, 1 / 2), (3, 3, -1 / 2)]
  else if name = "Sx" then some [(2, 3, 1), (3, 2, 1)]
  else if name = "Sp" ∨ name = "S+" then some [(3, 2, 1)]
  else if name = "Sm" ∨ name = "S-" then some [(2, 3, 1)]
  else none

/-! ## Z3 (sites/Z3.h) -/

/-- The quantum numbers of `Z3Site` (Z3.h:39-48). -/
def z3QN (cq : Option Bool) : Option QNs :=
  if cq.getD true then some ⟨[3], vals [[0], [1], [2]]⟩ else none

/-- The calls of `Z3Site::op` (Z3.h:69-138): 1, 2, 3 are the states "0", "1", "2". -/
noncomputable def z3Op (name : String) : Option (List (Nat × Nat × ℂ)) :=
  let c (t : ℝ) : ℂ := (Real.cos t : ℂ)
  let s (t : ℝ) : ℂ := (Real.sin t : ℂ) * Complex.I
  if name = "N" then some [(2, 2, 1), (3, 3, 2)]
  else if name = "Sig" then some [(1, 3, 1), (2, 1, 1), (3, 2, 1)]
  else if name = "SigDag" then some [(3, 1, 1), (1, 2, 1), (2, 3, 1)]
  else if name = "Tau" then some [(1, 1, 1), (2, 2, c (2 * Real.pi / 3) + s (2 * Real.pi / 3)),
    (3, 3, c (4 * Real.pi / 3) + s (4 * Real.pi / 3))]
  else if name = "TauDag" then some [(1, 1, 1), (2, 2, c (2 * Real.pi / 3) - s (2 * Real.pi / 3)),
    (3, 3, c (4 * Real.pi / 3) - s (4 * Real.pi / 3))]
  else if name = "Proj0" then some [(1, 1, 1)]
  else if name = "Proj1" then some [(2, 2, 1)]
  else if name = "Proj2" then some [(3, 3, 1)]
  else none

end Verif.Sites
