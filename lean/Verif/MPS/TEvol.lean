import Verif.MPS.DmrgC73

/-!
# Evolution of a matrix product state by gates

`gateTEvol` (tevol.h). The state is as in `DmrgNum`; the factorizations are given by their specification.
-/

noncomputable section

namespace Verif.TEvol

open Finset Verif.Limits Verif.DmrgNum

variable {𝕜 : Type*} [RCLike 𝕜]

/-- A gate on two sites; `G s₁' s₂' s₁ s₂` are its elements, the primed ones the result. bondgate.h:23-67 -/
structure Gate (𝕜 : Type*) where
  i1 : Int
  i2 : Int
  G : Nat → Nat → Nat → Nat → 𝕜

/-- `psi(i1)*psi(i2)*g->gate()`, then the primes are removed. tevol.h:88-89 -/
def applied (g : Gate 𝕜) (A B : Site 𝕜) : Block 𝕜 A.l A.d B.d B.r :=
  WithLp.toLp 2 fun i => ∑ s₁ ∈ range A.d, ∑ s₂ ∈ range B.d, bval A B i.1 s₁ s₂ i.2.2.2 * g.G i.2.1 i.2.2.1 s₁ s₂

/-- The factorizations in `svdBond`, which may depend on the round. mps_impl.h:50-79 -/
abbrev Split (𝕜 : Type*) [RCLike 𝕜] := Nat → Dir → (l d₁ d₂ r : Nat) → Block 𝕜 l d₁ d₂ r → Site 𝕜 × Site 𝕜

/-- The loop over the gates, from round `n` on. Gates on sites which are not neighbours are not modelled (`ub`). tevol.h:82-118 -/
def gates (o : Ops (Site 𝕜)) (sp : Split 𝕜) : Nat → List (Gate 𝕜) → MPS (Site 𝕜) → Res (MPS (Site 𝕜))
  | _, [], psi => .ok psi
  | n, g :: rest, psi =>
    if g.i2 ≠ g.i1 + 1 then .ub
    else
      let AA := applied g (psi.t g.i1) (psi.t g.i2)
      match rest with
      | [] => svdBond psi g.i1 (sp n .right _ _ _ _ AA) .right
      | g' :: rest =>
        if g'.i1 ≥ g.i2 then
          (svdBond psi g.i1 (sp n .left _ _ _ _ AA) .left).bind fun psi => (position o psi g'.i1).bind fun psi => gates o sp (n + 1) (g' :: rest) psi
        else
          (svdBond psi g.i1 (sp n .right _ _ _ _ AA) .right).bind fun psi => (position o psi g'.i2).bind fun psi => gates o sp (n + 1) (g' :: rest) psi

/-- `norm(psi)`. mps.cc:1049-1055 -/
def norm (psi : MPS (Site 𝕜)) : Res ℝ := (orthoCenter psi).bind fun c => .ok (Real.sqrt (frob (psi.t c)))

/-- A tensor times a number. -/
def mulSite (x : 𝕜) (A : Site 𝕜) : Site 𝕜 := { A with A := fun a s c => x * A.A a s c }

/-- `normalize()`. mps.cc:164-171 -/
def normalize (psi : MPS (Site 𝕜)) : Res (MPS (Site 𝕜) × ℝ) :=
  (norm psi).bind fun nrm => if |nrm| < 1 / 10 ^ 20 then .throw else (scale psi (mulSite ((1 / nrm : ℝ) : 𝕜))).bind fun psi => .ok (psi, nrm)

/-- The loop over `nt` steps; what the observer does is left out. tevol.h:79-131 -/
def steps (o : Ops (Site 𝕜)) (sp : Split 𝕜) (gs : List (Gate 𝕜)) (norml : Bool) : Nat → Nat → MPS (Site 𝕜) → ℝ → Res (MPS (Site 𝕜) × ℝ)
  | 0, _, psi, tot => .ok (psi, tot)
  | k + 1, n, psi, tot => (gates o sp n gs psi).bind fun psi =>
    if norml then (normalize psi).bind fun q => steps o sp gs norml k (n + gs.length) q.1 (tot * q.2)
    else steps o sp gs norml k (n + gs.length) psi tot

/-- The integer part of a number, towards zero. -/
def trunc (x : ℝ) : Int := if 0 ≤ x then ⌊x⌋ else ⌈x⌉

/-- `int(ttotal/tstep+(1e-9*(ttotal/tstep)))` and the check after it. A quotient by zero and one which does not fit into an `int` are
undefined. tevol.h:66-70 -/
def number (ttotal tstep : ℝ) : Res Int :=
  if tstep = 0 then .ub
  else
    let nt := trunc (ttotal / tstep + 1 / 10 ^ 9 * (ttotal / tstep))
    if ¬ (-2 ^ 31 ≤ nt ∧ nt < 2 ^ 31) then .ub
    else if |nt * tstep - ttotal| > 1 / 10 ^ 9 then .throw
    else .ok nt

/-- `gateTEvol(gatelist,ttotal,tstep,psi,args)`; `front()` of an empty list is undefined, and `range1(nt)` is empty for negative `nt`.
tevol.h:52-140 -/
def gateTEvol (o : Ops (Site 𝕜)) (sp : Split 𝕜) (gs : List (Gate 𝕜)) (ttotal tstep : ℝ) (norml : Bool) (psi : MPS (Site 𝕜)) : Res (MPS (Site 𝕜) × ℝ) :=
  (number ttotal tstep).bind fun nt =>
    match gs with
    | [] => .ub
    | g :: _ => (position o psi g.i1).bind fun psi => (norm psi).bind fun tot => steps o sp gs norml nt.toNat 0 psi tot

/-! ## Specification -/

/-- A gate acts on a wavefunction. -/
def act (dd : Int → Nat) (g : Gate 𝕜) (φ : (Int → Nat) → 𝕜) (σ : Int → Nat) : 𝕜 :=
  ∑ s₁ ∈ range (dd g.i1), ∑ s₂ ∈ range (dd (g.i1 + 1)), g.G (σ g.i1) (σ (g.i1 + 1)) s₁ s₂ * φ (Function.update (Function.update σ g.i1 s₁) (g.i1 + 1) s₂)

/-- The gates of a list, the first one first. -/
def actAll (dd : Int → Nat) (gs : List (Gate 𝕜)) (φ : (Int → Nat) → 𝕜) : (Int → Nat) → 𝕜 := gs.foldl (fun φ g => act dd g φ) φ

/-- The list `k` times. -/
def evolve (dd : Int → Nat) (gs : List (Gate 𝕜)) : Nat → ((Int → Nat) → 𝕜) → ((Int → Nat) → 𝕜)
  | 0, φ => φ
  | k + 1, φ => evolve dd gs k (actAll dd gs φ)

/-- A configuration of the sites. -/
def Cfg (dd : Int → Nat) (N : Nat) (σ : Int → Nat) : Prop := ∀ i : Int, 1 ≤ i → i ≤ N → σ i < dd i

end Verif.TEvol
