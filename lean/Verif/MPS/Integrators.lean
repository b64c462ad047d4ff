import Verif.Base
import Mathlib.Analysis.Normed.Module.Basic

/-!
# Runge-Kutta steps

`rungeKutta4` and `midpointMethod` (integrators.h:23-98). A tensor is an element of a vector space, or default constructed. Numbers are exact.
-/

noncomputable section

namespace Verif.Integrators

variable {E : Type*} [AddCommGroup E] [Module ℝ E]

/-- A vector of tensors; `none` is a default constructed one. -/
abbrev Vec (E : Type*) := List (Option E)

/-- `v.at(i)`, also of negative `i` which as an unsigned number is beyond the end. -/
def atV (v : Vec E) (i : Int) : Res (Option E) :=
  if i < 0 then .throw else match v[i.toNat]? with
  | some a => .ok a
  | none => .throw

/-- `L += R` of tensors with the same indices. itensor.cc:1253-1264 -/
def addT : Option E → Option E → Res (Option E)
  | none, b => .ok b
  | some _, none => .throw
  | some a, some b => .ok (some (a + b))

/-- A number times a tensor; without storage a null pointer is followed. itensor.cc:1013-1019, 1094-1097, itdata/dotask.h:660-674 -/
def smulT (c : ℝ) : Option E → Res (Option E)
  | none => .ub
  | some a => .ok (some (c • a))

/-- `while(!v.at(N) && N > 1) --N;` integrators.h:34, 79 -/
def lastN (v : Vec E) : Nat → Int → Res Int
  | 0, N => .ok N
  | n + 1, N => (atV v N).bind fun a => if a.isNone ∧ N > 1 then lastN v n (N - 1) else .ok N

/-- `for(int j = 1; j <= N; ++j) d.at(j) += f(j);` where `f` is an expression that can fail. -/
def addLoop (f : Int → Res (Option E)) : Nat → Int → Vec E → Res (Vec E)
  | 0, _, d => .ok d
  | n + 1, j, d => (f j).bind fun x => (atV d j).bind fun a => (addT a x).bind fun y => addLoop f n (j + 1) (d.set j.toNat y)

/-- `c*k.at(j)` -/
def scaled (c : ℝ) (k : Vec E) (j : Int) : Res (Option E) := (atV k j).bind fun a => smulT c a

/-- `(tstep/6.)*(k1.at(j) + 2*k2.at(j) + 2*k3.at(j) + k4.at(j))`; the first two sums are taken into their right operands, which are temporary
objects (itensor.cc:1106-1109). integrators.h:69 -/
def weighted (t : ℝ) (k₁ k₂ k₃ k₄ : Vec E) (j : Int) : Res (Option E) :=
  (atV k₁ j).bind fun a => (scaled 2 k₂ j).bind fun b => (addT b a).bind fun ab =>
  (scaled 2 k₃ j).bind fun c => (addT c ab).bind fun abc =>
  (atV k₄ j).bind fun d => (addT abc d).bind fun s => smulT (t / 6) s

/-- `N`, or the error for an empty vector. integrators.h:33-36, 78-81 -/
def sizeN (v : Vec E) : Res Nat :=
  (lastN v v.length ((v.length : Int) - 1)).bind fun N => if N ≤ 0 then .throw else .ok N.toNat

/-- `rungeKutta4(D,tstep,v)`. integrators.h:28-71 -/
def rungeKutta4 (D : Vec E → Res (Vec E)) (t : ℝ) (v : Vec E) : Res (Vec E) :=
  (sizeN v).bind fun N =>
  (D v).bind fun k₁ => (addLoop (scaled (t / 2) k₁) N 1 v).bind fun d =>
  (D d).bind fun k₂ => (addLoop (scaled (t / 2) k₂) N 1 v).bind fun d =>
  (D d).bind fun k₃ => (addLoop (scaled t k₃) N 1 v).bind fun d =>
  (D d).bind fun k₄ => addLoop (weighted t k₁ k₂ k₃ k₄) N 1 v

/-- `midpointMethod(D,tstep,v)`. integrators.h:73-98 -/
def midpointMethod (D : Vec E → Res (Vec E)) (t : ℝ) (v : Vec E) : Res (Vec E) :=
  (sizeN v).bind fun N =>
  (D v).bind fun k₁ => (addLoop (scaled (t / 2) k₁) N 1 v).bind fun d =>
  (D d).bind fun k₂ => addLoop (scaled t k₂) N 1 v

/-- A number of steps. -/
def steps (f : Vec E → Res (Vec E)) : Nat → Vec E → Res (Vec E)
  | 0, v => .ok v
  | n + 1, v => (f v).bind fun v => steps f n v

end Verif.Integrators
