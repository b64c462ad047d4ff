import Verif.MPS.DmrgC73

/-!
# `applyMPO` by fitting

`fitApplyMPOImpl` with two sites in the centre (mpoalgs.cc:367-470), on tensors of numbers as in `DmrgNum.lean`. Numbers are exact. The
legs of a tensor have fixed places; that `K` and `x` have site indices in common, that the site indices of `Kx` are replaced by those of
`K*x` and its link indices by new ones (mpoalgs.cc:430-434) is not modelled. `x`, `K` and `Kx` have the same length. The options
`Normalize` and `Noise` are off (the defaults).
-/

noncomputable section

namespace Verif.FitApply

open Finset Verif.Limits Verif.DmrgNum

variable {𝕜 : Type*} [RCLike 𝕜]

/-- `dag` of a tensor. itensor.cc:251-256 -/
def dag (A : Site 𝕜) : Site 𝕜 := { A with A := fun a s c => (starRingEnd 𝕜) (A.A a s c) }

/-- `dag` of a state: every tensor; the limits stay. mps.h:108-115 -/
def dagM (s : MPS (Site 𝕜)) : MPS (Site 𝕜) := { s with t := fun i => dag (s.t i) }

/-- An element of `E`: the link of `Kx`, of `K`, of `x`. -/
abbrev EV (𝕜 : Type*) := Nat → Nat → Nat → 𝕜

/-- `E[b-1]*x(b)*K(b)`: the links on the left are contracted, the link of `Kx` is open. mpoalgs.cc:387-388 -/
def lwf (k : Nat) (W : Nat → Nat → Nat → Nat → 𝕜) (A : Site 𝕜) (E : EV 𝕜) (a' s' w' c : Nat) : 𝕜 :=
  ∑ w ∈ range k, ∑ s ∈ range A.d, (∑ a ∈ range A.l, E a' w a * A.A a s c) * W w s' s w'

/-- `E[b+2]*x(b+1)*K(b+1)`. mpoalgs.cc:389-390, and in the first environments 442 -/
def rwf (k : Nat) (W : Nat → Nat → Nat → Nat → 𝕜) (A : Site 𝕜) (E : EV 𝕜) (a s' w c' : Nat) : 𝕜 :=
  ∑ w' ∈ range k, ∑ s ∈ range A.d, (∑ c ∈ range A.r, E c' w' c * A.A a s c) * W w s' s w'

/-- `lwfK * Kx(b)`. mpoalgs.cc:411 -/
def addL (f : Nat → Nat → Nat → Nat → 𝕜) (B : Site 𝕜) : EV 𝕜 :=
  fun c' w' c => ∑ a' ∈ range B.l, ∑ s' ∈ range B.d, f a' s' w' c * B.A a' s' c'

/-- `rwfK * Kx(b+1)`. mpoalgs.cc:413, 442 -/
def addR (f : Nat → Nat → Nat → Nat → 𝕜) (B : Site 𝕜) : EV 𝕜 :=
  fun a' w a => ∑ c' ∈ range B.r, ∑ s' ∈ range B.d, f a s' w c' * B.A a' s' c'

/-- `wfK = lwfK*rwfK; wfK *= fac`: `k` and `m` are the dimensions of the links of `K` and `x` between the two sites. mpoalgs.cc:392-393 -/
def wfK (fac : ℝ) (k m : Nat) (f g : Nat → Nat → Nat → Nat → 𝕜) (l d₁ d₂ r : Nat) : Block 𝕜 l d₁ d₂ r :=
  WithLp.toLp 2 fun i => (fac : 𝕜) * ∑ w ∈ range k, ∑ c ∈ range m, f i.1 i.2.1 w c * g c i.2.2.1 w i.2.2.2

/-- `wfK.dag()`. mpoalgs.cc:398 -/
def dagB {l d₁ d₂ r : Nat} (y : Block 𝕜 l d₁ d₂ r) : Block 𝕜 l d₁ d₂ r := WithLp.toLp 2 fun i => (starRingEnd 𝕜) (y i)

/-- The factorization in `svdBond` (mps_impl.h:50-79), with its truncation; it may depend on the round and on the direction. -/
abbrev Split (𝕜 : Type*) [RCLike 𝕜] := Nat → Dir → (l d₁ d₂ r : Nat) → Block 𝕜 l d₁ d₂ r → Site 𝕜 × Site 𝕜

/-- A round of the loop: the bond, the half sweep, and the state before and after it (without the `dag` under which it is kept). -/
structure Entry (𝕜 : Type*) where
  b : Int
  ha : Int
  before : Int → Site 𝕜
  after : Int → Site 𝕜

/-- `Kx`, which during the calculation is the conjugate of the state, the vector `E`, and what was done so far. -/
structure Job (𝕜 : Type*) where
  kx : MPS (Site 𝕜)
  E : Int → EV 𝕜
  log : List (Entry 𝕜)

/-- `E[i]`, where `E` has `N+2` elements and there is no check. mpoalgs.cc:437 -/
def getE (N : Nat) (E : Int → EV 𝕜) (i : Int) : Res (EV 𝕜) := if 0 ≤ i ∧ i < N + 2 then .ok (E i) else .ub

/-- The body of the loop in `twoSiteFitApply`. mpoalgs.cc:380-414 -/
def body (M : Mpo 𝕜) (T : Split 𝕜) (fac : ℝ) (x : Int → Site 𝕜) (j : Job 𝕜) (b ha : Int) : Res (Job 𝕜) :=
  (getE j.kx.N j.E (b - 1)).bind fun L =>
  (getE j.kx.N j.E (b + 2)).bind fun R =>
    let f := lwf (M.k (b - 1)) (M.W b) (x b) L
    let g := rwf (M.k (b + 1)) (M.W (b + 1)) (x (b + 1)) R
    let A := j.kx.t b
    let B := j.kx.t (b + 1)
    let y := dagB (wfK fac (M.k b) (x b).r f g A.l A.d B.d B.r)
    let d := if ha = 1 then Dir.left else Dir.right
    (svdBond j.kx b (T j.log.length d A.l A.d B.d B.r y) d).bind fun kx =>
      .ok ⟨kx, if ha = 1 then Function.update j.E b (addL f (kx.t b)) else Function.update j.E (b + 1) (addR g (kx.t (b + 1))),
        j.log ++ [⟨b, ha, (dagM j.kx).t, (dagM kx).t⟩]⟩

/-- `for(int b = 1, ha = 1; ha <= 2; sweepnext(b,ha,N))`; `none` when not finished after the given number of rounds. mpoalgs.cc:380 -/
def bonds (M : Mpo 𝕜) (T : Split 𝕜) (fac : ℝ) (x : Int → Site 𝕜) : Nat → Int → Int → Job 𝕜 → Option (Res (Job 𝕜))
  | 0, _, ha, j => if ha ≤ 2 then none else some (.ok j)
  | n + 1, b, ha, j =>
    if ha ≤ 2 then
      match body M T fac x j b ha with
      | .ok j => bonds M T fac x n (Sweeps.next j.kx.N 2 1 (b, ha)).1 (Sweeps.next j.kx.N 2 1 (b, ha)).2 j
      | .throw => some .throw
      | .ub => some .ub
    else some (.ok j)

/-- The loop over sweeps. mpoalgs.cc:445-465 -/
def sweeps (M : Mpo 𝕜) (T : Split 𝕜) (fac : ℝ) (x : Int → Site 𝕜) (fuel : Nat) : Nat → Job 𝕜 → Option (Res (Job 𝕜))
  | 0, j => some (.ok j)
  | n + 1, j =>
    match bonds M T fac x fuel 1 1 j with
    | some (.ok j) => sweeps M T fac x fuel n j
    | r => r

/-- `for(auto n = N; n > NCenterSites; --n) E[n] = E[n+1]*x(n)*K(n)*Kx(n);` mpoalgs.cc:438-443 -/
def fillE (M : Mpo 𝕜) (x t : Int → Site 𝕜) (nc : Nat) : Nat → (Int → EV 𝕜) → Int → EV 𝕜
  | 0, E => E
  | n + 1, E =>
    if n + 1 > nc then
      fillE M x t nc n (Function.update E (n + 1) (addR (rwf (M.k (n + 1)) (M.W (n + 1)) (x (n + 1)) (E (n + 1 + 1))) (t (n + 1))))
    else E

/-- `fitApplyMPOImpl(fac,x,K,Kx,sweeps)`: the result and what was done. mpoalgs.cc:418-467 -/
def fit (o : Ops (Site 𝕜)) (M : Mpo 𝕜) (T : Split 𝕜) (fac : ℝ) (x : Int → Site 𝕜) (fuel n : Nat) (Kx : MPS (Site 𝕜)) :
    Option (Res (MPS (Site 𝕜) × List (Entry 𝕜))) :=
  match position o (dagM Kx) 1 with
  | .throw => some .throw
  | .ub => some .ub
  | .ok kx =>
    match sweeps M T fac x fuel n ⟨kx, fillE M x kx.t 2 kx.N fun _ _ _ _ => 1, []⟩ with
    | some (.ok j) => some (.ok (dagM j.kx, j.log))
    | some .throw => some .throw
    | some .ub => some .ub
    | none => none

end Verif.FitApply
