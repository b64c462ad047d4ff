import Verif.MPS.FitApply

/-!
# `applyMPO` by fitting with one site in the centre

`fitApplyMPOImpl` with `NCenterSites` set to 1 (mpoalgs.cc:311-365, 418-467). What is said in `FitApply.lean` holds here too.
-/

noncomputable section

namespace Verif.FitOne

open Finset Verif.Limits Verif.DmrgNum Verif.FitApply

variable {𝕜 : Type*} [RCLike 𝕜]

/-- The places of the elements of a tensor at one site, and such tensors. -/
abbrev Pl1 (l d r : Nat) := Fin l × Fin d × Fin r

abbrev Block1 (𝕜 : Type*) [RCLike 𝕜] (l d r : Nat) := EuclideanSpace 𝕜 (Pl1 l d r)

/-- The tensor with these elements. -/
def toSite {l d r : Nat} (y : Block1 𝕜 l d r) : Site 𝕜 :=
  ⟨l, d, r, fun a s c => if h : a < l ∧ s < d ∧ c < r then y (⟨a, h.1⟩, ⟨s, h.2.1⟩, ⟨c, h.2.2⟩) else 0⟩

/-- `P = nE*E[s+ds]; P *= fac` where `nE` comes from the left; `k` and `m` are the dimensions of the links of `K` and `x` on the right of
the site. mpoalgs.cc:332-341 -/
def projL (fac : ℝ) (k m : Nat) (f : Nat → Nat → Nat → Nat → 𝕜) (E : EV 𝕜) (l d r : Nat) : Block1 𝕜 l d r :=
  WithLp.toLp 2 fun i => (fac : 𝕜) * ∑ w ∈ range k, ∑ c ∈ range m, f i.1 i.2.1 w c * E i.2.2 w c

/-- The same where `nE` comes from the right; `k` and `m` are the dimensions of the links on the left. -/
def projR (fac : ℝ) (k m : Nat) (g : Nat → Nat → Nat → Nat → 𝕜) (E : EV 𝕜) (l d r : Nat) : Block1 𝕜 l d r :=
  WithLp.toLp 2 fun i => (fac : 𝕜) * ∑ w ∈ range k, ∑ a ∈ range m, g a i.2.1 w i.2.2 * E i.1 w a

/-- `auto [U,S,V] = svd(P,{ci},args)`: the factor `V`. The index `ci` is the link on the right of the site (`left`) or on its left (`right`);
in place of it `V` has a new index. mpoalgs.cc:353-355 -/
abbrev Split1 (𝕜 : Type*) [RCLike 𝕜] := Nat → Dir → (l d r : Nat) → Block1 𝕜 l d r → Site 𝕜

/-- A round of the loop: the site, the half sweep, the tensors before it (without the `dag` under which they are kept) and `P`. -/
structure Entry1 (𝕜 : Type*) where
  s : Int
  ha : Int
  before : Int → Site 𝕜
  P : Site 𝕜

structure Job1 (𝕜 : Type*) where
  kx : MPS (Site 𝕜)
  E : Int → EV 𝕜
  log : List (Entry1 𝕜)

/-- The links of `E[s-1]` and `E[s+1]` with `Kx`: those of the tensors of `Kx` which were used for them. At the ends there is no link. -/
def dimL (t : Int → Site 𝕜) (s : Int) : Nat := if s ≤ 1 then 1 else (t (s - 1)).r

def dimR (N : Nat) (t : Int → Site 𝕜) (s : Int) : Nat := if N ≤ s then 1 else (t (s + 1)).l

/-- The body of the loop in `oneSiteFitApply`. The index `ci` is always found. mpoalgs.cc:324-364 -/
def body1 (M : Mpo 𝕜) (T : Split1 𝕜) (fac : ℝ) (x : Int → Site 𝕜) (j : Job1 𝕜) (s ha : Int) : Res (Job1 𝕜) :=
  let ds : Int := if ha = 1 then 1 else -1
  (getE j.kx.N j.E (s - ds)).bind fun F =>
  (getE j.kx.N j.E (s + ds)).bind fun G =>
    let l := dimL j.kx.t s
    let d := (j.kx.t s).d
    let r := dimR j.kx.N j.kx.t s
    let f := lwf (M.k (s - 1)) (M.W s) (x s) F
    let g := rwf (M.k s) (M.W s) (x s) F
    let P := if ha = 1 then projL fac (M.k s) (x s).r f G l d r else projR fac (M.k (s - 1)) (x s).l g G l d r
    let V := if 1 ≤ s + ds ∧ s + ds ≤ j.kx.N then T j.log.length (if ha = 1 then Dir.left else Dir.right) l d r P else toSite P
    (set j.kx s (dag V)).bind fun kx =>
      .ok ⟨kx, Function.update j.E s (if ha = 1 then addL f (kx.t s) else addR g (kx.t s)), j.log ++ [⟨s, ha, (dagM j.kx).t, toSite P⟩]⟩

/-- `for(int s = 1, ha = 1; ha <= 2; sweepnext1(s,ha,N))`; `none` when not finished after the given number of rounds. mpoalgs.cc:323, sweeps.h:509-514 -/
def sites (M : Mpo 𝕜) (T : Split1 𝕜) (fac : ℝ) (x : Int → Site 𝕜) : Nat → Int → Int → Job1 𝕜 → Option (Res (Job1 𝕜))
  | 0, _, ha, j => if ha ≤ 2 then none else some (.ok j)
  | n + 1, s, ha, j =>
    if ha ≤ 2 then
      match body1 M T fac x j s ha with
      | .ok j => sites M T fac x n (Sweeps.next j.kx.N 1 1 (s, ha)).1 (Sweeps.next j.kx.N 1 1 (s, ha)).2 j
      | .throw => some .throw
      | .ub => some .ub
    else some (.ok j)

/-- The loop over sweeps. mpoalgs.cc:445-465 -/
def sweeps1 (M : Mpo 𝕜) (T : Split1 𝕜) (fac : ℝ) (x : Int → Site 𝕜) (fuel : Nat) : Nat → Job1 𝕜 → Option (Res (Job1 𝕜))
  | 0, j => some (.ok j)
  | n + 1, j =>
    match sites M T fac x fuel 1 1 j with
    | some (.ok j) => sweeps1 M T fac x fuel n j
    | r => r

/-- `fitApplyMPOImpl(fac,x,K,Kx,sweeps,{"NCenterSites=",1})`: the result and what was done. mpoalgs.cc:418-467 -/
def fit1 (o : Ops (Site 𝕜)) (M : Mpo 𝕜) (T : Split1 𝕜) (fac : ℝ) (x : Int → Site 𝕜) (fuel n : Nat) (Kx : MPS (Site 𝕜)) :
    Option (Res (MPS (Site 𝕜) × List (Entry1 𝕜))) :=
  match position o (dagM Kx) 1 with
  | .throw => some .throw
  | .ub => some .ub
  | .ok kx =>
    match sweeps1 M T fac x fuel n ⟨kx, fillE M x kx.t 1 kx.N fun _ _ _ _ => 1, []⟩ with
    | some (.ok j) => some (.ok (dagM j.kx, j.log))
    | some .throw => some .throw
    | some .ub => some .ub
    | none => none

end Verif.FitOne
