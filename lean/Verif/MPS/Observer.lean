import Verif.Base
import Verif.MPS.Sweeps
import Mathlib.Analysis.SpecialFunctions.Log.Basic

/-!
# The observer of a DMRG calculation

`DMRGObserver` (DMRGObserver.h) and the loops of `DMRGWorker` (dmrg.h:376-463) that call it. What the optimization of each bond gives is data: it
does not depend on the observer. Numbers are exact; of what is printed only the report after each sweep is kept.
-/

noncomputable section

namespace Verif.Observer

/-- `Spectrum`, without quantum numbers. spectrum.h:36-39 -/
structure Spec where
  eigs : List ℝ
  truncerr : ℝ

/-- What the optimization of a bond gives: the energy and the spectrum. dmrg.h:420-424 -/
structure Bond where
  energy : ℝ
  spec : Spec

/-- The three lines printed after a sweep. DMRGObserver.h:161-168 -/
structure Report where
  sweep : Nat
  dim : Int
  te : ℝ
  energy : ℝ

/-- `DMRGObserver`. `S` is not initialized by the constructor; to copy a number that is not initialized is allowed here, to calculate with it is
not. DMRGObserver.h:59-72 -/
structure Obs where
  ge : ℝ
  gs : ℝ
  printeigs : Bool
  S : Option ℝ
  maxEigs : Int
  maxTe : ℝ
  done : Bool
  lastE : ℝ
  lastS : Option ℝ
  spec : Spec

/-- The constructor. DMRGObserver.h:78-92; the spectrum is default constructed, spectrum.cc:24-29 -/
def Obs.new (ge gs : ℝ) (printeigs : Bool) : Obs := ⟨ge, gs, printeigs, none, -1, -1, false, 1000, some 1000, ⟨[], 0⟩⟩

/-- The entropy of the spectrum. A sum of zero, for which the code has NaN, gives zero here. DMRGObserver.h:128-141 -/
def entropy (eigs : List ℝ) : ℝ :=
  let norm := eigs.foldl (fun x p => x + p) 0
  (-1) * ((eigs.map fun p => p / norm).foldl (fun S p => if p > 1E-13 then S + p * Real.log p else S) 0)

/-- `measure`: the observer and the reports. `N/2` is that of the language. DMRGObserver.h:94-172 -/
def measure (N : Nat) (silent : Bool) (sw : Nat) (b ha : Int) (energy : ℝ) (o : Obs) : Obs × List Report :=
  let o := if !silent && o.printeigs then
      if b = ((N / 2 : Nat) : Int) ∧ ha = 2 then { o with S := some (entropy o.spec.eigs) } else o
    else o
  let o := { o with maxEigs := max o.maxEigs o.spec.eigs.length, maxTe := max o.maxTe o.spec.truncerr }
  if !silent then
    if b = 1 ∧ ha = 2 then
      ({ o with maxEigs := -1, maxTe := -1 }, [⟨sw, if o.maxEigs > 1 then o.maxEigs else 1, if o.maxTe > 0 then o.maxTe else 0, energy⟩])
    else (o, [])
  else (o, [])

/-- The two files that are looked for. -/
structure Files where
  stop : Bool
  stopAll : Bool

/-- `std::fabs(x-y)` of numbers that may not be initialized. -/
def diff : Option ℝ → Option ℝ → Res ℝ
  | some x, some y => .ok |x - y|
  | _, _ => .ub

/-- What follows the three goals in `checkDone`. DMRGObserver.h:228-249 -/
def checkFiles (energy : ℝ) (o : Obs) (f : Files) : Bool × Obs × Files :=
  let o := { o with lastE := energy, lastS := o.S }
  if f.stop then (true, o, { f with stop := false })
  else if f.stopAll then (true, { o with done := true }, { f with stopAll := false })
  else (o.done, o, f)

/-- `checkDone`. DMRGObserver.h:175-250 -/
def checkDone (sw : Nat) (energy : ℝ) (o : Obs) (f : Files) : Res (Bool × Obs × Files) :=
  let o := if sw = 1 then { o with lastE := 1000, lastS := some 1000 } else o
  if o.ge > 0 ∧ o.gs < 0 ∧ sw % 2 = 0 ∧ |energy - o.lastE| < o.ge then .ok (true, { o with lastE := 1000 }, f)
  else
  (if o.ge < 0 ∧ o.gs > 0 ∧ sw % 2 = 0 then (diff o.S o.lastS).map fun dS => decide (dS < o.gs) else .ok false).bind fun met =>
  if met then .ok (true, { o with lastS := some 1000 }, f)
  else
  (if o.ge > 0 ∧ o.gs > 0 ∧ sw % 2 = 0 then (diff o.S o.lastS).map fun dS => decide (|energy - o.lastE| < o.ge ∧ dS < o.gs) else .ok false).bind fun met =>
  if met then .ok (true, { o with lastE := 1000, lastS := some 1000 }, f)
  else .ok (checkFiles energy o f)

/-- A calculation: the length of the chain, whether it is silent, the results of the optimizations by sweep, bond and half sweep, and the files that
somebody creates during each sweep. -/
structure Calc where
  N : Nat
  silent : Bool
  data : Nat → Int → Int → Bond
  created : Nat → Files

/-- The variables of `DMRGWorker`; the energy is NaN to begin with. -/
structure Job where
  obs : Obs
  out : List Report
  energy : Option ℝ

/-- The body of the loop over bonds. dmrg.h:420-445 -/
def body (c : Calc) (sw : Nat) (b ha : Int) (j : Job) : Job :=
  let d := c.data sw b ha
  let m := measure c.N c.silent sw b ha d.energy { j.obs with spec := d.spec }
  ⟨m.1, j.out ++ m.2, some d.energy⟩

/-- `for(int b = 1, ha = 1; ha <= 2; sweepnext(b,ha,N))`; `none` when not finished after the given number of rounds. dmrg.h:405 -/
def bonds (c : Calc) (sw : Nat) : Nat → Int → Int → Job → Option Job
  | 0, _, ha, j => if ha ≤ 2 then none else some j
  | n + 1, b, ha, j =>
    if ha ≤ 2 then bonds c sw n (Sweeps.next c.N 2 1 (b, ha)).1 (Sweeps.next c.N 2 1 (b, ha)).2 (body c sw b ha j) else some j

/-- The loop over sweeps: `n` more, after `sw`. The result has the number of sweeps made. dmrg.h:379-463; the `Energy` that `checkDone` finds is that of
the last bond, or 0 if there was none. -/
def sweeps (c : Calc) (fuel : Nat) : Nat → Nat → Job → Files → Option (Res (Job × Files × Nat))
  | 0, sw, j, f => some (.ok (j, f, sw))
  | n + 1, sw, j, f =>
    match bonds c (sw + 1) fuel 1 1 j with
    | none => none
    | some j =>
      match checkDone (sw + 1) (j.energy.getD 0) j.obs ⟨f.stop || (c.created (sw + 1)).stop, f.stopAll || (c.created (sw + 1)).stopAll⟩ with
      | .throw => some .throw
      | .ub => some .ub
      | .ok (d, o, f) => if d then some (.ok (⟨o, j.out, j.energy⟩, f, sw + 1)) else sweeps c fuel n (sw + 1) ⟨o, j.out, j.energy⟩ f

/-- `dmrg(psi,H,sweeps,obs,args)` as far as the observer is concerned. dmrg.h:337-467 -/
def dmrg (c : Calc) (fuel nsweep : Nat) (o : Obs) (f : Files) : Option (Res (Job × Files × Nat)) := sweeps c fuel nsweep 0 ⟨o, [], none⟩ f

end Verif.Observer
