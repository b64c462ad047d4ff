import Verif.MPS.DmrgForm

/-!
# DMRG with several operators, and with states to be orthogonal to

`LocalMPOSet` (localmposet.h), `LocalMPO_MPS` (localmpo_mps.h), the part of `LocalMPO` for the projector on a state (localmpo.h:289-301,
383-428, 542-618), and the functions `dmrg` which use them (dmrg.h:172-330). The states to be orthogonal to have site spaces of the same
dimensions as the state; links of the two never are the same index because those of the former are primed.
-/

noncomputable section

namespace Verif.DmrgNum

open Finset Verif.Limits

variable {𝕜 : Type*} [RCLike 𝕜]

/-- `for(auto& M : v) f(M)`. -/
def each {X Y : Type*} (f : X → Res Y) : List X → Res (List Y)
  | [] => .ok []
  | x :: xs => (f x).bind fun y => (each f xs).bind fun ys => .ok (y :: ys)

/-! ## A set of operators -/

/-- A projected operator: a `LocalMPO` with `Op_`. -/
abbrev Member (𝕜 : Type*) [RCLike 𝕜] := Mpo 𝕜 × LocalMPO.State (EnvT 𝕜)

/-- The operator with the environments at the current position: `lop_` after `position`. localmpo.h:460-468 -/
abbrev Given (𝕜 : Type*) [RCLike 𝕜] := Mpo 𝕜 × Option (EnvT 𝕜) × Option (EnvT 𝕜)

/-- `LocalMPO::position`. localmpo.h:443-470 -/
def mpoPos (b : Int) (t : Int → Site 𝕜) (q : Member 𝕜) : Res (Member 𝕜) :=
  (LocalMPO.position (absorb q.1) b t q.2).bind fun s => .ok (q.1, s)

def mpoGive (q : Member 𝕜) : Given 𝕜 := (q.1, LocalMPO.getL q.2, LocalMPO.getR q.2)

/-- `LocalMPO::product` with an operator. localmpo.h:387-390 -/
def mpoProd (b : Int) (q : Given 𝕜) {l d₁ d₂ r : Nat} (x : Block 𝕜 l d₁ d₂ r) : Block 𝕜 l d₁ d₂ r :=
  product (q.1.k (b - 1)) (q.1.k b) (q.1.k (b + 1)) (q.1.W b) (q.1.W (b + 1)) q.2.1 q.2.2 x

/-- `LocalOp` is null. localop.h:328, 491 -/
def isNull (q : Given 𝕜) : Bool := q.2.1.isNone && q.2.2.isNone

/-- `LocalMPOSet(Hset,args)`. localmposet.h:108-119 -/
def setMake (N : Nat) (Ms : List (Mpo 𝕜)) : List (Member 𝕜) := Ms.map fun M => (M, LocalMPO.make N none none 2 true)

/-- `LocalMPOSet::product`, `size`. localmposet.h:95, 138-150 -/
def setProd (gs : List (Given 𝕜)) (b : Int) (l d₁ d₂ r : Nat) : Res (Block 𝕜 l d₁ d₂ r → Block 𝕜 l d₁ d₂ r) :=
  match gs with
  | [] => .ub
  | q :: qs => if (q :: qs).any isNull then .throw else .ok fun x => qs.foldl (fun phip p => phip + mpoProd b p x) (mpoProd b q x)

/-- `LocalMPOSet` as seen by `DMRGWorker`: localmposet.h:101-106, 189-197. -/
def setEnv (T : Tools 𝕜) (write : Nat → Bool) : Worker.Env (Site 𝕜) (List (Member 𝕜)) (List (Given 𝕜)) ℝ where
  pos := fun b t => each (mpoPos b t)
  give := fun PH => PH.map mpoGive
  isW := fun PH => match PH with
    | [] => .ub
    | q :: _ => .ok q.2.write
  doW := each fun q => (LocalMPO.doWrite q.2 true).bind fun s => .ok (q.1, s)
  fac := facG setProd T
  write := write
  norm := normalizeSite

/-- `dmrg(psi,Hset,sweeps)`. dmrg.h:172-232 -/
def dmrgSet (o : Ops (Site 𝕜)) (Ms : List (Mpo 𝕜)) (T : Tools 𝕜) (write : Nat → Bool) (fuel n : Nat) (psi : MPS (Site 𝕜)) :=
  Worker.dmrg o (setEnv T write) fuel n psi (setMake psi.N Ms)

/-! ## States to be orthogonal to -/

/-- An environment of a state `Psi`: at a bond, with a link of `Psi` (primed) and a link of the state. -/
structure OvT (𝕜 : Type*) where
  bond : Int
  val : Nat → Nat → 𝕜

/-- A tensor which may be missing; then it is not multiplied with. -/
def valO (e : Option (OvT 𝕜)) : Nat → Nat → 𝕜 := e.elim (fun _ _ => 1) OvT.val

/-- `PH_[ll]*psi(ll+1) * dag(prime(Psi(ll+1),"Link"))` where the left links are contracted. localmpo.h:549-551 -/
def ovL (B A : Site 𝕜) (E : Nat → Nat → 𝕜) : Nat → Nat → 𝕜 :=
  let f := fun a' s b => ∑ a ∈ range A.l, E a' a * A.A a s b
  fun b' b => ∑ a' ∈ range B.l, ∑ s ∈ range A.d, f a' s b * (starRingEnd 𝕜) (B.A a' s b')

/-- The same where the right links are contracted. localmpo.h:588-590 -/
def ovR (B A : Site 𝕜) (E : Nat → Nat → 𝕜) : Nat → Nat → 𝕜 :=
  let f := fun b' s a => ∑ b ∈ range A.r, E b' b * A.A a s b
  fun a' a => ∑ b' ∈ range B.r, ∑ s ∈ range A.d, f b' s a * (starRingEnd 𝕜) (B.A a' s b')

/-- The step of `makeL` and `makeR` for a state. localmpo.h:545-554, 583-592 -/
def ovAbsorb (Ps : MPS (Site 𝕜)) (i : Int) (e : Option (OvT 𝕜)) (A : Site 𝕜) : OvT 𝕜 :=
  if e.elim (decide (i = 1)) (fun e => decide (e.bond = i - 1)) then ⟨i, ovL (Ps.t i) A (valO e)⟩ else ⟨i - 1, ovR (Ps.t i) A (valO e)⟩

/-- A `LocalMPO` with `Psi_`. -/
abbrev Orth (𝕜 : Type*) [RCLike 𝕜] := MPS (Site 𝕜) × LocalMPO.State (OvT 𝕜)

/-- What `product` uses of it. -/
abbrev GivenO (𝕜 : Type*) [RCLike 𝕜] := MPS (Site 𝕜) × Option (OvT 𝕜) × Option (OvT 𝕜)

/-- `LocalMPO::position` with a state. localmpo.h:443-470 -/
def ovPos (b : Int) (t : Int → Site 𝕜) (q : Orth 𝕜) : Res (Orth 𝕜) :=
  (LocalMPO.position (ovAbsorb q.1) b t q.2).bind fun s => .ok (q.1, s)

def ovGive (q : Orth 𝕜) : GivenO 𝕜 := (q.1, LocalMPO.getL q.2, LocalMPO.getR q.2)

/-- `othr`: localmpo.h:394-401. -/
def othr (b : Int) (q : GivenO 𝕜) (a s₁ s₂ c : Nat) : 𝕜 :=
  let f₁ := fun a s₁ m => ∑ a' ∈ range (q.1.t b).l, valO q.2.1 a' a * (starRingEnd 𝕜) ((q.1.t b).A a' s₁ m)
  let f₂ := fun m s₂ c => ∑ c' ∈ range (q.1.t (b + 1)).r, valO q.2.2 c' c * (starRingEnd 𝕜) ((q.1.t (b + 1)).A m s₂ c')
  ∑ m ∈ range (q.1.t b).r, f₁ a s₁ m * f₂ m s₂ c

/-- `LocalMPO::product` with a state: `z = (othr*phi).eltC(); phip = dag(othr); phip *= z`. localmpo.h:391-422 -/
def ovProd (b : Int) (q : GivenO 𝕜) {l d₁ d₂ r : Nat} (x : Block 𝕜 l d₁ d₂ r) : Block 𝕜 l d₁ d₂ r :=
  let z := ∑ i : Pl l d₁ d₂ r, othr b q i.1 i.2.1 i.2.2.1 i.2.2.2 * x i
  WithLp.toLp 2 fun i => (starRingEnd 𝕜) (othr b q i.1 i.2.1 i.2.2.1 i.2.2.2) * z

/-- `LocalMPO_MPS(H,psis,args)`; all with two centre sites. localmpo_mps.h:91-105 -/
def exMake (N : Nat) (M : Mpo 𝕜) (Ps : List (MPS (Site 𝕜))) : Member 𝕜 × List (Orth 𝕜) :=
  ((M, LocalMPO.make N none none 2 true), Ps.map fun P => (P, LocalMPO.make P.N none none 2 false))

/-- `LocalMPO_MPS::product`, `size`. localmpo_mps.h:70, 131-144 -/
def exProd (w : ℝ) (g : Given 𝕜 × List (GivenO 𝕜)) (b : Int) (l d₁ d₂ r : Nat) : Res (Block 𝕜 l d₁ d₂ r → Block 𝕜 l d₁ d₂ r) :=
  if isNull g.1 then .throw else .ok fun x => g.2.foldl (fun phip q => phip + (w : 𝕜) • ovProd b q x) (mpoProd b g.1 x)

/-- `LocalMPO_MPS` as seen by `DMRGWorker`: `doWrite` is that of the operator. localmpo_mps.h:82-85, 146-154 -/
def exEnv (w : ℝ) (T : Tools 𝕜) (write : Nat → Bool) : Worker.Env (Site 𝕜) (Member 𝕜 × List (Orth 𝕜)) (Given 𝕜 × List (GivenO 𝕜)) ℝ where
  pos := fun b t PH => (mpoPos b t PH.1).bind fun q => (each (ovPos b t) PH.2).bind fun qs => .ok (q, qs)
  give := fun PH => (mpoGive PH.1, PH.2.map ovGive)
  isW := fun PH => .ok PH.1.2.write
  doW := fun PH => (LocalMPO.doWrite PH.1.2 true).bind fun s => .ok ((PH.1.1, s), PH.2)
  fac := facG (exProd w) T
  write := write
  norm := normalizeSite

/-- `dmrg(psi,H,psis,sweeps,{"Weight",w})`. dmrg.h:234-272. The comparison of the quantum numbers (dmrg.h:250-263) is not in the model:
tensors are dense. -/
def dmrgEx (o : Ops (Site 𝕜)) (M : Mpo 𝕜) (Ps : List (MPS (Site 𝕜))) (w : ℝ) (T : Tools 𝕜) (write : Nat → Bool) (fuel n : Nat) (psi : MPS (Site 𝕜)) :=
  Worker.dmrg o (exEnv w T write) fuel n psi (exMake psi.N M Ps)

/-! ## What they are meant to be -/

/-- The sum of operators. -/
def totSet (Ms : List (Mpo 𝕜)) (dd : Int → Nat) (N : Nat) (φ' φ : Fn 𝕜) : 𝕜 := (Ms.map fun M => sandwich M dd N φ' φ).sum

/-- The inner product of two wavefunctions. -/
def overlap (dd : Int → Nat) (N : Nat) (φ' φ : Fn 𝕜) : 𝕜 := sumCfg dd N (fun σ => (starRingEnd 𝕜) (φ' σ) * φ σ) fun _ => 0

/-- `H + w * (|0><0| + |1><1| + ...)`. dmrg.h:228-236 -/
def totEx (M : Mpo 𝕜) (Ps : List (MPS (Site 𝕜))) (w : ℝ) (dd : Int → Nat) (N : Nat) (φ' φ : Fn 𝕜) : 𝕜 :=
  sandwich M dd N φ' φ + (w : 𝕜) * (Ps.map fun P => overlap dd N φ' (wave P.t N) * overlap dd N (wave P.t N) φ).sum

/-- The weights of a wavefunction in the states. -/
def inStates (Ps : List (MPS (Site 𝕜))) (dd : Int → Nat) (N : Nat) (φ : Fn 𝕜) : ℝ := (Ps.map fun P => ‖overlap dd N (wave P.t N) φ‖ ^ 2).sum

/-! ## Environments of a state -/

theorem ovL_eq {B A : Site 𝕜} (h : B.d = A.d) (i : Int) {E : Nat → Nat → Nat → 𝕜} {E' : Nat → Nat → 𝕜} (hE : ∀ a' a, E' a' a = E a' 0 a) (b' w b : Nat) :
    ovL B A E' b' b = absL 1 (idM.W i) B A E b' w b := by
  rw [absL_eq, sum_tri]
  simp only [range_one, sum_singleton, tr_id i h]
  unfold ovL
  dsimp only
  refine sum_congr rfl fun a' _ => ?_
  simp only [sum_mul, mul_sum]
  rw [sum_comm]
  refine sum_congr rfl fun a _ => sum_congr rfl fun s _ => ?_
  rw [hE]
  ring

theorem ovR_eq {B A : Site 𝕜} (h : B.d = A.d) (i : Int) {E : Nat → Nat → Nat → 𝕜} {E' : Nat → Nat → 𝕜} (hE : ∀ a' a, E' a' a = E a' 0 a) (b' w b : Nat) :
    ovR B A E' b' b = absR 1 (idM.W i) B A E b' w b := by
  rw [absR_eq, sum_tri]
  simp only [range_one, sum_singleton, tr_id i h]
  unfold ovR
  dsimp only
  refine sum_congr rfl fun a' _ => ?_
  simp only [sum_mul, mul_sum]
  rw [sum_comm]
  refine sum_congr rfl fun a _ => sum_congr rfl fun s _ => ?_
  rw [hE]
  ring

theorem ov_left {Ps : MPS (Site 𝕜)} {t : Int → Site 𝕜} : ∀ {n : Nat}, (∀ i : Int, 1 ≤ i → i ≤ n → (Ps.t i).d = (t i).d) →
    (∀ a' w a, valO (LocalMPO.leftEnv (ovAbsorb Ps) none t n) a' a = lv idM Ps.t t n a' w a) ∧
      (LocalMPO.leftEnv (ovAbsorb Ps) none t n).elim (n = 0) (fun e => e.bond = n) := by
  intro n
  induction n with
  | zero => intro _; exact ⟨fun _ _ _ => rfl, rfl⟩
  | succ n ih =>
    intro hd
    obtain ⟨i1, i2⟩ := ih fun i h1 h2 => hd i h1 (by push_cast; omega)
    have hc : (LocalMPO.leftEnv (ovAbsorb Ps) none t n).elim (decide ((n : Int) + 1 = 1)) (fun e => decide (e.bond = (n : Int) + 1 - 1)) = true := by
      generalize LocalMPO.leftEnv (ovAbsorb Ps) none t n = E at i2
      cases E with
      | none => simp only [Option.elim] at i2 ⊢; simp [i2]
      | some e => simp only [Option.elim] at i2 ⊢; simp [i2]
    rw [LocalMPO.leftEnv, ovAbsorb, if_pos hc]
    refine ⟨fun b' w b => ?_, by simp⟩
    exact ovL_eq (hd _ (by omega) (by push_cast; omega)) _ (fun a' a => i1 a' 0 a) b' w b

theorem ov_right {Ps : MPS (Site 𝕜)} {N : Nat} (hN : 2 ≤ N) {t : Int → Site 𝕜} (hd : ∀ i : Int, 1 ≤ i → i ≤ N → (Ps.t i).d = (t i).d) : ∀ {j : Nat}, j ≤ N →
    (∀ a' w a, valO (LocalMPO.rightEnv (ovAbsorb Ps) none t N j) a' a = rv idM N Ps.t t j a' w a) ∧
      (LocalMPO.rightEnv (ovAbsorb Ps) none t N j).elim (j = 0) (fun e => e.bond = (N : Int) - j) := by
  intro j
  induction j with
  | zero => intro _; exact ⟨fun _ _ _ => rfl, rfl⟩
  | succ j ih =>
    intro hj
    obtain ⟨i1, i2⟩ := ih (by omega)
    have hc : ¬(LocalMPO.rightEnv (ovAbsorb Ps) none t N j).elim (decide ((N : Int) - j = 1)) (fun e => decide (e.bond = (N : Int) - j - 1)) = true := by
      generalize LocalMPO.rightEnv (ovAbsorb Ps) none t N j = E at i2
      cases E with
      | none => simp only [Option.elim] at i2 ⊢; simp only [i2, decide_eq_true_eq]; push_cast; omega
      | some e => simp only [Option.elim] at i2 ⊢; simp only [i2, decide_eq_true_eq]; omega
    rw [LocalMPO.rightEnv, ovAbsorb, if_neg hc]
    refine ⟨fun b' w b => ?_, by simp only [Option.elim]; push_cast; ring⟩
    exact ovR_eq (hd _ (by omega) (by omega)) _ (fun a' a => i1 a' 0 a) b' w b

/-- `othr*phi` is the inner product with the state. -/
theorem othr_eq {N : Nat} {dd : Int → Nat} {t : Int → Site 𝕜} (c : Chain N dd t) {Ps : MPS (Site 𝕜)} (cP : Chain N dd Ps.t) {n j : Nat} (h : n + 2 + j = N)
    {p : Site 𝕜 × Site 𝕜} (fp : Fit t (n + 1) p) :
    ∑ i : Pl (t (n + 1)).l (t (n + 1)).d (t (n + 1 + 1)).d (t (n + 1 + 1)).r,
      othr (n + 1) (Ps, LocalMPO.leftEnv (ovAbsorb Ps) none t n, LocalMPO.rightEnv (ovAbsorb Ps) none t N j) i.1 i.2.1 i.2.2.1 i.2.2.2 * bl t (n + 1) p i =
      overlap dd N (wave Ps.t N) (wave (put2 t (n + 1) p) N) := by
  have hd : ∀ i : Int, 1 ≤ i → i ≤ N → (Ps.t i).d = (t i).d := fun i h1 h2 => (cP.site i h1 h2).trans (c.site i h1 h2).symm
  have cp := chain_put2 c (b := (n : Int) + 1) (by omega) (by omega) fp
  have e2 : (((n + 2 : Nat) : Int)) = (n : Int) + 1 + 1 := by push_cast; ring
  have e0 : overlap dd N (wave Ps.t N) (wave (put2 t (n + 1) p) N) = lv idM Ps.t (put2 t (n + 1) p) N 0 0 0 :=
    (lv_id (fun i h1 h2 => ⟨cP.site i h1 h2, cp.site i h1 h2⟩) _ 0 0 0).symm
  rw [e0, ← pairing idM cP cp rfl (n := n + 2) (j := j) (by omega) (by omega)]
  have el : lv idM Ps.t (put2 t (n + 1) p) n = lv idM Ps.t t n := lv_congr idM fun i h1 h2 =>
    ⟨rfl, put2_ne _ _ (by omega) (by omega)⟩
  have er : rv idM N Ps.t (put2 t (n + 1) p) j = rv idM N Ps.t t j := rv_congr idM fun i h1 h2 =>
    ⟨rfl, put2_ne _ _ (by omega) (by omega)⟩
  rw [er, lv, lv, el, e2]
  push_cast
  rw [put2_fst, put2_snd, show (idM : Mpo 𝕜).k ((n : Int) + 1 + 1) = 1 from rfl, show (idM : Mpo 𝕜).k ((n : Int) + 1) = 1 from rfl, show (idM : Mpo 𝕜).k (n : Int) = 1 from rfl,
    sum_tri]
  simp only [range_one, sum_singleton, absL_eq, sum_tri]
  have hA : (Ps.t ((n : Int) + 1)).d = p.1.d := by rw [fp.d₁]; exact hd _ (by omega) (by omega)
  have hB : (Ps.t ((n : Int) + 1 + 1)).d = p.2.d := by rw [fp.d₂]; exact hd _ (by omega) (by omega)
  simp only [tr_id _ hA, tr_id _ hB]
  obtain ⟨vl, -⟩ := ov_left (Ps := Ps) (t := t) (n := n) fun i h1 h2 => hd i h1 (by omega)
  obtain ⟨vr, -⟩ := ov_right (Ps := Ps) (t := t) (N := N) (by omega) hd (j := j) (by omega)
  have f1 := cP.link ((n : Int) + 1) (by omega) (by omega)
  have rhs : ∀ c' c : Nat, (∑ m' ∈ range (Ps.t ((n : Int) + 1 + 1)).l, ∑ m ∈ range p.2.l,
      (∑ a' ∈ range (Ps.t ((n : Int) + 1)).l, ∑ a ∈ range p.1.l, lv idM Ps.t t n a' 0 a * ∑ s ∈ range p.1.d, (starRingEnd 𝕜) ((Ps.t ((n : Int) + 1)).A a' s m') * p.1.A a s m) *
        ∑ s ∈ range p.2.d, (starRingEnd 𝕜) ((Ps.t ((n : Int) + 1 + 1)).A m' s c') * p.2.A m s c) * rv idM N Ps.t t j c' 0 c =
      ∑ m' ∈ range (Ps.t ((n : Int) + 1)).r, ∑ m ∈ range p.1.r, ∑ a' ∈ range (Ps.t ((n : Int) + 1)).l, ∑ a ∈ range (t ((n : Int) + 1)).l, ∑ s₁ ∈ range (t ((n : Int) + 1)).d,
        ∑ s₂ ∈ range (t ((n : Int) + 1 + 1)).d, (lv idM Ps.t t n a' 0 a * (starRingEnd 𝕜) ((Ps.t ((n : Int) + 1)).A a' s₁ m')) *
          (rv idM N Ps.t t j c' 0 c * (starRingEnd 𝕜) ((Ps.t ((n : Int) + 1 + 1)).A m' s₂ c')) * (p.1.A a s₁ m * p.2.A m s₂ c) := by
    intro c' c
    rw [f1, fp.m, fp.l, fp.d₁, fp.d₂, sum_mul]
    refine sum_congr rfl fun m' _ => ?_
    rw [sum_mul]
    refine sum_congr rfl fun m _ => ?_
    rw [sum_mul, sum_mul]
    refine sum_congr rfl fun a' _ => ?_
    rw [sum_mul, sum_mul]
    refine sum_congr rfl fun a _ => ?_
    rw [mul_sum, sum_mul]
    refine Eq.trans (sum_congr rfl fun s₂ _ => ?_) sum_comm
    rw [mul_sum, sum_mul, sum_mul]
    refine sum_congr rfl fun s₁ _ => ?_
    ring
  refine Eq.symm ((sum_congr rfl fun c' _ => sum_congr rfl fun c _ => rhs c' c).trans ?_)
  rw [fp.r, sum_pl]
  refine (pull fun _ _ => pull fun _ _ => pull fun _ _ => pull fun _ _ => pull fun _ _ => rfl).trans ((Finset.sum_range _).trans (sum_congr rfl fun a _ => ?_))
  refine (pull fun _ _ => pull fun _ _ => pull fun _ _ => pull fun _ _ => pull fun _ _ => rfl).trans ((Finset.sum_range _).trans (sum_congr rfl fun s₁ _ => ?_))
  refine (pull fun _ _ => pull fun _ _ => pull fun _ _ => pull fun _ _ => pull fun _ _ => rfl).trans ((Finset.sum_range _).trans (sum_congr rfl fun s₂ _ => ?_))
  refine (pull fun _ _ => rfl).trans ((Finset.sum_range _).trans (sum_congr rfl fun c _ => ?_))
  refine (pull fun _ _ => rfl).trans ?_
  simp only [← sum_mul, ← mul_sum]
  unfold othr bl bval
  dsimp only
  refine congrArg₂ (· * ·) (sum_congr rfl fun m' _ => ?_) rfl
  simp only [fun a' a => vl a' 0 a, fun a' a => vr a' 0 a]

end Verif.DmrgNum
