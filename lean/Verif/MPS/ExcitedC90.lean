import Verif.MPS.Excited

/-! # C90: DMRG with a set of operators minimizes their sum, and with states to be orthogonal to it minimizes the operator with projectors -/

noncomputable section

namespace Verif.DmrgNum

open Finset Verif.Limits

variable {𝕜 : Type*} [RCLike 𝕜]

/-! ## The projections -/

def effSet (Ms : List (Mpo 𝕜)) (N : Nat) : EffT 𝕜 := fun t n j => (Ms.map fun M => effL (kerAt M N t n j)).sum

/-- What `product` of a state multiplies with. -/
def vecO (P : MPS (Site 𝕜)) (N : Nat) (t : Int → Site 𝕜) (n j : Nat) : Block 𝕜 (t (n + 1)).l (t (n + 1)).d (t (n + 1 + 1)).d (t (n + 1 + 1)).r :=
  WithLp.toLp 2 fun i => (starRingEnd 𝕜) (othr (n + 1) (P, LocalMPO.leftEnv (ovAbsorb P) none t n, LocalMPO.rightEnv (ovAbsorb P) none t N j) i.1 i.2.1 i.2.2.1 i.2.2.2)

def rank1 {E : Type*} [NormedAddCommGroup E] [InnerProductSpace 𝕜 E] (y : E) : E →ₗ[𝕜] E := (innerₛₗ 𝕜 y).smulRight y

theorem rank1_apply {E : Type*} [NormedAddCommGroup E] [InnerProductSpace 𝕜 E] (y x : E) : rank1 (𝕜 := 𝕜) y x = inner 𝕜 y x • y := rfl

def effEx (M : Mpo 𝕜) (Ps : List (MPS (Site 𝕜))) (w : ℝ) (N : Nat) : EffT 𝕜 := fun t n j =>
  effL (kerAt M N t n j) + (w : 𝕜) • (Ps.map fun P => rank1 (vecO P N t n j)).sum

theorem inner_vecO {N : Nat} {dd : Int → Nat} {t : Int → Site 𝕜} (c : Chain N dd t) {P : MPS (Site 𝕜)} (cP : Chain N dd P.t) {n j : Nat} (h : n + 2 + j = N)
    {p : Site 𝕜 × Site 𝕜} (fp : Fit t (n + 1) p) : inner 𝕜 (vecO P N t n j) (bl t (n + 1) p) = overlap dd N (wave P.t N) (wave (put2 t (n + 1) p) N) := by
  rw [← othr_eq c cP h fp, PiLp.inner_apply]
  refine sum_congr rfl fun i _ => ?_
  rw [RCLike.inner_apply, vecO]
  simp only [starRingEnd_self_apply]
  ring

theorem overlap_conj (dd : Int → Nat) (N : Nat) (φ' φ : Fn 𝕜) : (starRingEnd 𝕜) (overlap dd N φ' φ) = overlap dd N φ φ' := by
  have e := fun F ρ => sumCfg_map (dd := dd) (starRingEnd 𝕜).toAddMonoidHom F N ρ
  simp only [RingHom.toAddMonoidHom_eq_coe, AddMonoidHom.coe_coe] at e
  unfold overlap
  rw [e]
  refine sumCfg_congr fun σ _ _ => ?_
  simp only [map_mul, starRingEnd_self_apply]
  ring

theorem meets_set {Ms : List (Mpo 𝕜)} {dd : Int → Nat} {N : Nat} (hk : ∀ M ∈ Ms, M.k N = 1 ∧ Herm M dd N) : Meets (totSet Ms dd N) N dd (effSet Ms N) := by
  refine ⟨?_, ?_⟩
  · intro t c n j h p q fp fq
    unfold totSet effSet
    induction Ms with
    | nil => simp
    | cons M Ms ih =>
      simp only [List.map_cons, List.sum_cons, LinearMap.add_apply, inner_add_right]
      rw [ih fun M' h' => hk M' (by simp [h']), eff_eq c (hk M (by simp)).1 h fp fq]
  · intro φ' φ
    unfold totSet
    induction Ms with
    | nil => simp
    | cons M Ms ih =>
      simp only [List.map_cons, List.sum_cons, map_add]
      rw [ih fun M' h' => hk M' (by simp [h']), sandwich_conj (hk M (by simp)).2]

theorem meets_ex {M : Mpo 𝕜} {Ps : List (MPS (Site 𝕜))} {dd : Int → Nat} {N : Nat} (hk : M.k N = 1) (hH : Herm M dd N) (w : ℝ) (hP : ∀ P ∈ Ps, Chain N dd P.t) :
    Meets (totEx M Ps w dd N) N dd (effEx M Ps w N) := by
  refine ⟨?_, ?_⟩
  · intro t c n j h p q fp fq
    unfold totEx effEx
    rw [LinearMap.add_apply, inner_add_right, eff_eq c hk h fp fq, LinearMap.smul_apply, inner_smul_right]
    congr 2
    induction Ps with
    | nil => simp
    | cons P Ps ih =>
      simp only [List.map_cons, List.sum_cons, LinearMap.add_apply, inner_add_right]
      rw [ih fun P' h' => hP P' (by simp [h']), rank1_apply, inner_smul_right, inner_vecO c (hP P (by simp)) h fq, ← inner_conj_symm (bl t (n + 1) p) (vecO P N t n j), inner_vecO c (hP P (by simp)) h fp,
        overlap_conj]
      ring
  · intro φ' φ
    unfold totEx
    rw [map_add, sandwich_conj hH, map_mul, RCLike.conj_ofReal, map_list_sum, List.map_map]
    congr 4
    funext P
    simp only [Function.comp, map_mul, overlap_conj]
    ring

/-! ## Several projected operators -/

/-- A `LocalMPO` with a state, which is never on disk, fits. -/
structure FitsO (psi : MPS (Site 𝕜)) (q : Orth 𝕜) (w : Option Int) : Prop where
  mem : LocalMPO.Mem (ovAbsorb q.1) none none psi.t q.2
  N : q.2.N = psi.N
  nc : q.2.nc = 2
  pos : ∀ b, w = some b → q.2.L = b - 1 ∧ q.2.R = b + 2

def gOf (psi : MPS (Site 𝕜)) (b : Int) (M : Mpo 𝕜) : Given 𝕜 := (M, LocalMPO.lE (absorb M) none psi.t (b - 1), LocalMPO.rE (absorb M) none psi.t psi.N (b + 2))

def gOfO (psi : MPS (Site 𝕜)) (b : Int) (P : MPS (Site 𝕜)) : GivenO 𝕜 := (P, LocalMPO.lE (ovAbsorb P) none psi.t (b - 1), LocalMPO.rE (ovAbsorb P) none psi.t psi.N (b + 2))

theorem mpoPos_spec {psi : MPS (Site 𝕜)} {q : Member 𝕜} {w : Option Int} (h : Dmrg.Fits (absorb q.1) psi q.2 w) {b : Int} (h1 : 1 ≤ b) (h2 : b < psi.N)
    (hw : ∀ a, w = some a → b - a ≤ 1 ∧ a - b ≤ 1) :
    ∃ q', mpoPos b psi.t q = .ok q' ∧ q'.1 = q.1 ∧ Dmrg.Fits (absorb q'.1) psi q'.2 (some b) ∧ mpoGive q' = gOf psi b q.1 := by
  obtain ⟨s, e, f, g1, g2⟩ := Dmrg.fits_position h h1 h2 hw
  refine ⟨(q.1, s), by rw [mpoPos, e, Res.bind_ok], rfl, f, ?_⟩
  unfold mpoGive gOf
  rw [g1, g2]

theorem ovPos_spec {psi : MPS (Site 𝕜)} {q : Orth 𝕜} {w : Option Int} (h : FitsO psi q w) {b : Int} (h1 : 1 ≤ b) (h2 : b < psi.N) :
    ∃ q', ovPos b psi.t q = .ok q' ∧ q'.1 = q.1 ∧ FitsO psi q' (some b) ∧ ovGive q' = gOfO psi b q.1 := by
  have hN := h.N
  have hnc := h.nc
  obtain ⟨s, e, m, l, r, c, n, -⟩ := LocalMPO.position_mem h.mem h1 (by omega) (by omega)
  refine ⟨(q.1, s), by rw [ovPos, e, Res.bind_ok], rfl, ⟨m, n.trans hN, c.trans hnc, ?_⟩, ?_⟩
  · rintro b' hb'; cases hb'; exact ⟨l, by simp only; omega⟩
  · unfold ovGive gOfO
    rw [LocalMPO.getL, m.left _ m.lo le_rfl, l, LocalMPO.getR, m.right _ le_rfl m.hi, r, n, hN, hnc]

/-- A loop over members each of which does what it should. -/
theorem each_spec {X Y K : Type*} {f : X → Res X} {give : X → Y} {key : X → K} {R S : X → Prop} {g : K → Y}
    (hf : ∀ x, R x → ∃ x', f x = .ok x' ∧ key x' = key x ∧ S x' ∧ give x' = g (key x)) : ∀ l : List X, (∀ x ∈ l, R x) →
    ∃ l', each f l = .ok l' ∧ l'.map key = l.map key ∧ (∀ x ∈ l', S x) ∧ l'.map give = (l.map key).map g := by
  intro l
  induction l with
  | nil => intro _; exact ⟨[], rfl, rfl, by simp, rfl⟩
  | cons x l ih =>
    intro h
    obtain ⟨x', e1, e2, e3, e4⟩ := hf x (h x (by simp))
    obtain ⟨l', f1, f2, f3, f4⟩ := ih fun y hy => h y (by simp [hy])
    refine ⟨x' :: l', by rw [each, e1, Res.bind_ok, f1, Res.bind_ok], by simp [e2, f2], ?_, by simp [e4, f4]⟩
    intro y hy
    rcases List.mem_cons.1 hy with rfl | hy
    · exact e3
    · exact f3 y hy

theorem doWrite_fits {psi : MPS (Site 𝕜)} {q : Member 𝕜} {w : Option Int} (h : Dmrg.Fits (absorb q.1) psi q.2 w) :
    ∃ s, LocalMPO.doWrite q.2 true = .ok s ∧ Dmrg.Fits (absorb q.1) psi s w := by
  rcases h.inv with hm | hm
  · have hw : q.2.write = false := hm.write
    have e : LocalMPO.doWrite q.2 true = .ok { q.2 with write := true, file := fun _ => none } := by
      unfold LocalMPO.doWrite
      rw [if_neg (by simp [h.op]), if_pos ⟨hw, rfl⟩]
    obtain ⟨d, l, r, n, c⟩ := hm.disk e
    exact ⟨_, e, ⟨Or.inr d, n.trans h.N, c.trans h.nc, d.op, fun b hb => ⟨l.trans (h.pos b hb).1, r.trans (h.pos b hb).2⟩,
      fun hb => ⟨l.trans (h.free hb).1, r.trans (h.free hb).2⟩⟩⟩
  · have e : LocalMPO.doWrite q.2 true = .ok { q.2 with write := true } := by
      unfold LocalMPO.doWrite
      rw [if_neg (by simp [h.op]), if_neg (by simp [hm.write])]
    have e' := hm.write_again e
    rw [e'] at e
    exact ⟨_, e, h⟩

theorem make_fits {psi : MPS (Site 𝕜)} (M : Mpo 𝕜) : Dmrg.Fits (absorb M) psi (LocalMPO.make psi.N none none 2 true) none :=
  ⟨Or.inl LocalMPO.Mem.make, rfl, rfl, rfl, by simp, fun _ => ⟨rfl, rfl⟩⟩

/-- A set of operators is a projected operator as `DMRGWorker` needs it. -/
theorem proj_set {Ms : List (Mpo 𝕜)} (hne : Ms ≠ []) (T : Tools 𝕜) (write : Nat → Bool) :
    Worker.Proj (setEnv T write) (fun psi PH w => PH.map Prod.fst = Ms ∧ ∀ q ∈ PH, Dmrg.Fits (absorb q.1) psi q.2 w) (fun psi b => Ms.map (gOf psi b)) := by
  refine ⟨?_, ?_, ?_⟩
  · rintro psi PH w ⟨hf, hF⟩ b h1 h2 hw
    obtain ⟨l', e1, e2, e3, e4⟩ := each_spec (f := mpoPos b psi.t) (give := mpoGive) (key := Prod.fst) (R := fun q => Dmrg.Fits (absorb q.1) psi q.2 w)
      (S := fun q => Dmrg.Fits (absorb q.1) psi q.2 (some b)) (g := gOf psi b) (fun x hx => mpoPos_spec hx h1 h2 hw) PH hF
    exact ⟨l', e1, ⟨e2.trans hf, e3⟩, by rw [← hf]; exact e4⟩
  · rintro psi psi' PH b ⟨hf, hF⟩ hN ht
    exact ⟨hf, fun q hq => Dmrg.fits_change (hF q hq) hN ht⟩
  · rintro psi PH w ⟨hf, hF⟩ sw
    cases PH with
    | nil => exact absurd hf.symm hne
    | cons q PH =>
      unfold Worker.toDisk setEnv
      simp only [Res.bind_ok]
      split
      · obtain ⟨l', e1, e2, e3, -⟩ := each_spec (Y := Unit) (f := fun q : Member 𝕜 => (LocalMPO.doWrite q.2 true).bind fun s => .ok (q.1, s)) (give := fun _ => ()) (key := Prod.fst)
          (R := fun q => Dmrg.Fits (absorb q.1) psi q.2 w) (S := fun q => Dmrg.Fits (absorb q.1) psi q.2 w) (g := fun _ => ())
          (fun x hx => by
            obtain ⟨s, e, h⟩ := doWrite_fits hx
            exact ⟨(x.1, s), by rw [e, Res.bind_ok], rfl, h, rfl⟩) (q :: PH) hF
        exact ⟨l', e1, e2.trans hf, e3⟩
      · exact ⟨_, rfl, hf, hF⟩

/-- An operator with states to be orthogonal to is one. -/
theorem proj_ex (M : Mpo 𝕜) (Ps : List (MPS (Site 𝕜))) (v : ℝ) (T : Tools 𝕜) (write : Nat → Bool) :
    Worker.Proj (exEnv v T write) (fun psi PH w => (PH.1.1 = M ∧ Dmrg.Fits (absorb PH.1.1) psi PH.1.2 w) ∧ PH.2.map Prod.fst = Ps ∧ ∀ q ∈ PH.2, FitsO psi q w)
      (fun psi b => (gOf psi b M, Ps.map (gOfO psi b))) := by
  refine ⟨?_, ?_, ?_⟩
  · rintro psi ⟨q, PS⟩ w ⟨⟨hM, h0⟩, hf, hF⟩ b h1 h2 hw
    simp only at hM h0 hf hF
    obtain ⟨q', a1, a2, a3, a4⟩ := mpoPos_spec h0 h1 h2 hw
    obtain ⟨l', e1, e2, e3, e4⟩ := each_spec (f := ovPos b psi.t) (give := ovGive) (key := Prod.fst) (R := fun q => FitsO psi q w)
      (S := fun q => FitsO psi q (some b)) (g := gOfO psi b) (fun x hx => ovPos_spec hx h1 h2) PS hF
    refine ⟨(q', l'), ?_, ⟨⟨a2.trans hM, a3⟩, e2.trans hf, e3⟩, ?_⟩
    · simp only [exEnv]
      rw [a1, Res.bind_ok, e1, Res.bind_ok]
    · simp only [exEnv]
      rw [a4, e4, hM, hf]
  · rintro psi psi' ⟨q, PS⟩ b ⟨⟨hM, h0⟩, hf, hF⟩ hN ht
    refine ⟨⟨hM, Dmrg.fits_change h0 hN ht⟩, hf, fun q hq => ?_⟩
    have h := hF q hq
    obtain ⟨hl, hr⟩ := h.pos b rfl
    exact ⟨h.mem.change fun i _ _ h3 => ht i (by omega), h.N.trans hN.symm, h.nc, h.pos⟩
  · rintro psi ⟨q, PS⟩ w ⟨⟨hM, h0⟩, hf, hF⟩ sw
    unfold Worker.toDisk exEnv
    simp only [Res.bind_ok]
    split
    · obtain ⟨s, e, h⟩ := doWrite_fits h0
      exact ⟨((q.1, s), PS), by rw [e, Res.bind_ok], ⟨hM, h⟩, hf, hF⟩
    · exact ⟨_, rfl, ⟨hM, h0⟩, hf, hF⟩

/-! ## The functions given to the eigensolver -/

theorem gOf_eq (psi : MPS (Site 𝕜)) {n j : Nat} (h : n + 2 + j = psi.N) (M : Mpo 𝕜) :
    gOf psi (n + 1) M = (M, LocalMPO.leftEnv (absorb M) none psi.t n, LocalMPO.rightEnv (absorb M) none psi.t psi.N j) := by
  unfold gOf LocalMPO.lE LocalMPO.rE
  rw [show ((n : Int) + 1 - 1).toNat = n by omega, show ((psi.N : Int) + 1 - (n + 1 + 2)).toNat = j by omega]

theorem gOfO_eq (psi : MPS (Site 𝕜)) {n j : Nat} (h : n + 2 + j = psi.N) (P : MPS (Site 𝕜)) :
    gOfO psi (n + 1) P = (P, LocalMPO.leftEnv (ovAbsorb P) none psi.t n, LocalMPO.rightEnv (ovAbsorb P) none psi.t psi.N j) := by
  unfold gOfO LocalMPO.lE LocalMPO.rE
  rw [show ((n : Int) + 1 - 1).toNat = n by omega, show ((psi.N : Int) + 1 - (n + 1 + 2)).toNat = j by omega]

theorem not_null (psi : MPS (Site 𝕜)) {n j : Nat} (h : n + 2 + j = psi.N) (hN : 3 ≤ psi.N) (M : Mpo 𝕜) : isNull (gOf psi (n + 1) M) = false := by
  rw [gOf_eq psi h]
  unfold isNull
  cases n with
  | zero => cases j with
    | zero => omega
    | succ j => simp [LocalMPO.rightEnv]
  | succ n => simp [LocalMPO.leftEnv]

theorem mpoProd_eq {psi : MPS (Site 𝕜)} {dd : Int → Nat} (c : Chain psi.N dd psi.t) {M : Mpo 𝕜} (hk0 : M.k 0 = 1) {n j : Nat} (h : n + 2 + j = psi.N)
    (x : Block 𝕜 (psi.t (n + 1)).l (psi.t (n + 1)).d (psi.t (n + 1 + 1)).d (psi.t (n + 1 + 1)).r) :
    mpoProd (n + 1) (gOf psi (n + 1) M) x = effL (kerAt M psi.N psi.t n j) x := by
  rw [gOf_eq psi h]
  unfold mpoProd
  rw [show (n : Int) + 1 - 1 = n by ring, ← product_eq c hk0 h]

theorem ovProd_eq {psi : MPS (Site 𝕜)} (P : MPS (Site 𝕜)) {n j : Nat} (h : n + 2 + j = psi.N)
    (x : Block 𝕜 (psi.t (n + 1)).l (psi.t (n + 1)).d (psi.t (n + 1 + 1)).d (psi.t (n + 1 + 1)).r) :
    ovProd (n + 1) (gOfO psi (n + 1) P) x = rank1 (𝕜 := 𝕜) (vecO P psi.N psi.t n j) x := by
  rw [gOfO_eq psi h, rank1_apply]
  ext i
  unfold ovProd
  rw [PiLp.smul_apply, smul_eq_mul, PiLp.inner_apply, mul_comm]
  simp only [vecO]
  congr 1
  refine sum_congr rfl fun i _ => ?_
  rw [RCLike.inner_apply]
  simp only [starRingEnd_self_apply]
  ring

theorem setProd_eq {Ms : List (Mpo 𝕜)} (hne : Ms ≠ []) (hk : ∀ M ∈ Ms, M.k 0 = 1) {psi : MPS (Site 𝕜)} {dd : Int → Nat} (hN : 3 ≤ psi.N) (c : Chain psi.N dd psi.t)
    {n j : Nat} (h : n + 2 + j = psi.N) : setProd (Ms.map (gOf psi (n + 1))) (n + 1) _ _ _ _ = .ok ⇑(effSet Ms psi.N psi.t n j) := by
  cases Ms with
  | nil => exact absurd rfl hne
  | cons M Ms =>
    rw [List.map_cons]
    unfold setProd
    dsimp only
    rw [if_neg]
    · congr 1
      funext x
      have main : ∀ (Ms : List (Mpo 𝕜)), (∀ M ∈ Ms, M.k 0 = 1) → ∀ acc, (Ms.map (gOf psi (n + 1))).foldl (fun phip p => phip + mpoProd (n + 1) p x) acc =
          acc + (Ms.map fun M => effL (kerAt M psi.N psi.t n j)).sum x := by
        intro Ms
        induction Ms with
        | nil => intro _ acc; simp
        | cons M Ms ih =>
          intro hk acc
          rw [List.map_cons, List.foldl_cons, ih fun M' h' => hk M' (by simp [h']), mpoProd_eq c (hk M (by simp)) h]
          simp [add_assoc]
      rw [main Ms fun M' h' => hk M' (by simp [h']), mpoProd_eq c (hk M (by simp)) h]
      simp [effSet]
    · rw [← List.map_cons]
      simp only [List.any_map, List.any_eq_true, not_exists, not_and, Function.comp]
      intro M' _
      rw [not_null psi h hN]
      simp

theorem exProd_eq {M : Mpo 𝕜} {Ps : List (MPS (Site 𝕜))} (w : ℝ) (hk0 : M.k 0 = 1) {psi : MPS (Site 𝕜)} {dd : Int → Nat} (hN : 3 ≤ psi.N) (c : Chain psi.N dd psi.t)
    {n j : Nat} (h : n + 2 + j = psi.N) : exProd w (gOf psi (n + 1) M, Ps.map (gOfO psi (n + 1))) (n + 1) _ _ _ _ = .ok ⇑(effEx M Ps w psi.N psi.t n j) := by
  unfold exProd
  rw [if_neg (by rw [not_null psi h hN]; simp)]
  congr 1
  funext x
  have main : ∀ (Ps : List (MPS (Site 𝕜))) acc, (Ps.map (gOfO psi (n + 1))).foldl (fun phip q => phip + (w : 𝕜) • ovProd (n + 1) q x) acc =
      acc + (w : 𝕜) • (Ps.map fun P => rank1 (𝕜 := 𝕜) (vecO P psi.N psi.t n j)).sum x := by
    intro Ps
    induction Ps with
    | nil => intro acc; simp
    | cons P Ps ih =>
      intro acc
      rw [List.map_cons, List.foldl_cons, ih, ovProd_eq P h]
      simp [add_assoc, smul_add]
  simp only
  rw [main, mpoProd_eq c hk0 h]
  rfl

/-! ## The calculations -/

theorem setup_set {Ms : List (Mpo 𝕜)} (hne : Ms ≠ []) {dd : Int → Nat} {N : Nat} (hN : 3 ≤ N) (hk : ∀ M ∈ Ms, M.k 0 = 1 ∧ M.k N = 1 ∧ Herm M dd N) (T : Tools 𝕜)
    (write : Nat → Bool) : Setup (totSet Ms dd N) dd (effSet Ms N) setProd T (setEnv T write)
      (fun psi PH w => PH.map Prod.fst = Ms ∧ ∀ q ∈ PH, Dmrg.Fits (absorb q.1) psi q.2 w) (fun psi b => Ms.map (gOf psi b)) N (setMake N Ms) := by
  refine ⟨meets_set fun M h => (hk M h).2, rfl, rfl, proj_set hne T write, ?_, ?_⟩
  · rintro psi rfl c n j h
    exact setProd_eq hne (fun M hM => (hk M hM).1) hN c h
  · rintro psi rfl
    refine ⟨by simp [setMake, Function.comp_def], fun q hq => ?_⟩
    obtain ⟨M, -, rfl⟩ := List.mem_map.1 hq
    exact make_fits M

theorem setup_ex {M : Mpo 𝕜} {Ps : List (MPS (Site 𝕜))} {dd : Int → Nat} {N : Nat} (hN : 3 ≤ N) (hk0 : M.k 0 = 1) (hk : M.k N = 1) (hH : Herm M dd N)
    (hP : ∀ P ∈ Ps, P.N = N ∧ Chain N dd P.t) (w : ℝ) (T : Tools 𝕜) (write : Nat → Bool) :
    Setup (totEx M Ps w dd N) dd (effEx M Ps w N) (exProd w) T (exEnv w T write)
      (fun psi PH w => (PH.1.1 = M ∧ Dmrg.Fits (absorb PH.1.1) psi PH.1.2 w) ∧ PH.2.map Prod.fst = Ps ∧ ∀ q ∈ PH.2, FitsO psi q w)
      (fun psi b => (gOf psi b M, Ps.map (gOfO psi b))) N (exMake N M Ps) := by
  refine ⟨meets_ex hk hH w fun P h => (hP P h).2, rfl, rfl, proj_ex M Ps w T write, ?_, ?_⟩
  · rintro psi rfl c n j h
    exact exProd_eq w hk0 hN c h
  · rintro psi rfl
    refine ⟨⟨rfl, make_fits M⟩, by simp [exMake, Function.comp_def], fun q hq => ?_⟩
    obtain ⟨P, hm, rfl⟩ := List.mem_map.1 hq
    exact ⟨LocalMPO.Mem.make, (hP P hm).1, rfl, by simp⟩

/-- **C90** (set of operators). A calculation with one or more operators, on three or more sites, ends without error, whatever the
truncation. The energy found at each bond is the expectation value of the sum of the operators in some state of norm 1, so it is never below the lowest
eigenvalue of the sum; it is not above that of the state at the time. When nothing is truncated the energies never increase, and the last one, which
is returned, is that of the final state. -/
theorem C90_set_partial {Ms : List (Mpo 𝕜)} (hne : Ms ≠ []) {dd : Int → Nat} {T : Tools 𝕜} {o : Ops (Site 𝕜)} (hT : SolverOK T) (hS : SplitOK T) (ho : GaugeOK o)
    {psi : MPS (Site 𝕜)} (hk : ∀ M ∈ Ms, M.k 0 = 1 ∧ M.k psi.N = 1 ∧ Herm M dd psi.N) (hN : 3 ≤ psi.N) (hr : Reach o LO RO psi)
    (hc : Chain psi.N dd psi.t) (hz : normSq dd psi.N (wave psi.t psi.N) ≠ 0) (write : Nat → Bool) {n : Nat} (hn : 1 ≤ n) {fuel : Nat}
    (hf : 2 * psi.N ≤ fuel) :
    ∃ j, dmrgSet o Ms T write fuel n psi = some (.ok j) ∧
      (j.log.map fun e => (e.b, e.ha)) = (List.replicate n (Dmrg.order psi.N)).flatten ∧
      (∀ e ∈ j.log, (∃ φ, normSq dd psi.N φ = 1 ∧ (Ms.map fun M => sandwich M dd psi.N φ φ).sum = (e.en : 𝕜)) ∧
        (∀ g : ℝ, (∀ φ, g * normSq dd psi.N φ ≤ RCLike.re (Ms.map fun M => sandwich M dd psi.N φ φ).sum) → g ≤ e.en) ∧
        e.en ≤ RCLike.re (Ms.map fun M => sandwich M dd psi.N (wave e.t psi.N) (wave e.t psi.N)).sum / normSq dd psi.N (wave e.t psi.N)) ∧
      normSq dd psi.N (wave j.psi.t psi.N) = 1 ∧
      (Exact T → (j.log.map (·.en)).Pairwise (fun a b => b ≤ a) ∧
        (∀ e ∈ j.log, e.en ≤ RCLike.re (Ms.map fun M => sandwich M dd psi.N (wave psi.t psi.N) (wave psi.t psi.N)).sum / normSq dd psi.N (wave psi.t psi.N)) ∧
        ∃ e, j.log.getLast? = some e ∧ (Ms.map fun M => sandwich M dd psi.N (wave j.psi.t psi.N) (wave j.psi.t psi.N)).sum = (e.en : 𝕜)) := by
  obtain ⟨j, e, hm, h1, -, -, -, h2, h3⟩ := run_all hT hS ho (setup_set hne hN hk T write) hN hr hc hz hn hf
  refine ⟨j, e, hm, fun x hx => ⟨(h1 x hx).1, fun g hg => ?_, (h1 x hx).2⟩, h2, h3⟩
  obtain ⟨φ, e1, e2⟩ := (h1 x hx).1
  have := hg φ
  rw [show (Ms.map fun M => sandwich M dd psi.N φ φ).sum = (x.en : 𝕜) from e2, e1, mul_one, RCLike.ofReal_re] at this
  exact this

theorem totEx_self (M : Mpo 𝕜) (Ps : List (MPS (Site 𝕜))) (w : ℝ) (dd : Int → Nat) (N : Nat) (φ : Fn 𝕜) :
    totEx M Ps w dd N φ φ = sandwich M dd N φ φ + ((w * inStates Ps dd N φ : ℝ) : 𝕜) := by
  unfold totEx inStates
  congr 1
  push_cast
  congr 1
  induction Ps with
  | nil => simp
  | cons P Ps ih =>
    simp only [List.map_cons, List.sum_cons]
    push_cast
    rw [ih, ← overlap_conj, RCLike.conj_mul]

/-- **C90** (states to be orthogonal to). The same for `dmrg(psi,H,psis,sweeps,{"Weight",w})`: what is minimized is the expectation value of
`H + w*(|0><0| + |1><1| + ...)`, and the energies are values of this. The states `psis` are arbitrary states of the same length, in any gauge and of any
norm. -/
theorem C90_excited_partial {M : Mpo 𝕜} {Ps : List (MPS (Site 𝕜))} {dd : Int → Nat} {T : Tools 𝕜} {o : Ops (Site 𝕜)} (hT : SolverOK T) (hS : SplitOK T) (ho : GaugeOK o)
    {psi : MPS (Site 𝕜)} (hk0 : M.k 0 = 1) (hk : M.k psi.N = 1) (hH : Herm M dd psi.N) (hP : ∀ P ∈ Ps, P.N = psi.N ∧ Chain psi.N dd P.t) (w : ℝ) (hN : 3 ≤ psi.N)
    (hr : Reach o LO RO psi) (hc : Chain psi.N dd psi.t) (hz : normSq dd psi.N (wave psi.t psi.N) ≠ 0) (write : Nat → Bool) {n : Nat} (hn : 1 ≤ n) {fuel : Nat}
    (hf : 2 * psi.N ≤ fuel) :
    ∃ j, dmrgEx o M Ps w T write fuel n psi = some (.ok j) ∧
      (j.log.map fun e => (e.b, e.ha)) = (List.replicate n (Dmrg.order psi.N)).flatten ∧
      (∀ e ∈ j.log, (∃ φ, normSq dd psi.N φ = 1 ∧ sandwich M dd psi.N φ φ + ((w * inStates Ps dd psi.N φ : ℝ) : 𝕜) = (e.en : 𝕜)) ∧
        (∀ g : ℝ, (∀ φ, g * normSq dd psi.N φ ≤ RCLike.re (sandwich M dd psi.N φ φ) + w * inStates Ps dd psi.N φ) → g ≤ e.en) ∧
        e.en ≤ (RCLike.re (sandwich M dd psi.N (wave e.t psi.N) (wave e.t psi.N)) + w * inStates Ps dd psi.N (wave e.t psi.N)) / normSq dd psi.N (wave e.t psi.N)) ∧
      Chain psi.N dd j.psi.t ∧ normSq dd psi.N (wave j.psi.t psi.N) = 1 ∧
      (Exact T → (j.log.map (·.en)).Pairwise (fun a b => b ≤ a) ∧
        (∀ e ∈ j.log, e.en ≤ (RCLike.re (sandwich M dd psi.N (wave psi.t psi.N) (wave psi.t psi.N)) + w * inStates Ps dd psi.N (wave psi.t psi.N)) /
          normSq dd psi.N (wave psi.t psi.N)) ∧
        ∃ e, j.log.getLast? = some e ∧
          sandwich M dd psi.N (wave j.psi.t psi.N) (wave j.psi.t psi.N) + ((w * inStates Ps dd psi.N (wave j.psi.t psi.N) : ℝ) : 𝕜) = (e.en : 𝕜)) := by
  obtain ⟨j, e, hm, h1, -, -, hc', h2, h3⟩ := run_all hT hS ho (setup_ex hN hk0 hk hH hP w T write) hN hr hc hz hn hf
  have re_tot : ∀ φ : Fn 𝕜, RCLike.re (totEx M Ps w dd psi.N φ φ) = RCLike.re (sandwich M dd psi.N φ φ) + w * inStates Ps dd psi.N φ := by
    intro φ
    rw [totEx_self, map_add, RCLike.ofReal_re]
  simp only [energyT, re_tot] at h1 h3
  simp only [totEx_self] at h1 h3
  refine ⟨j, e, hm, fun x hx => ⟨(h1 x hx).1, fun g hg => ?_, (h1 x hx).2⟩, hc', h2, h3⟩
  obtain ⟨φ, e1, e2⟩ := (h1 x hx).1
  have := hg φ
  rw [← totEx_self] at e2
  rwa [← re_tot, e1, e2, mul_one, RCLike.ofReal_re] at this

/-- **C90** (how orthogonal). With a positive weight, and when nothing is truncated, the final state is orthogonal to `psis` up to the energy returned:
`w * sum |<i|psi>|^2 <= energy - g` for every lower bound `g` of the operator. Its own expectation value is not above the energy returned. -/
theorem C90_orthogonal_partial {M : Mpo 𝕜} {Ps : List (MPS (Site 𝕜))} {dd : Int → Nat} {T : Tools 𝕜} {o : Ops (Site 𝕜)} (hT : SolverOK T) (hS : SplitOK T)
    (hE : Exact T) (ho : GaugeOK o) {psi : MPS (Site 𝕜)} (hk0 : M.k 0 = 1) (hk : M.k psi.N = 1) (hH : Herm M dd psi.N) (hP : ∀ P ∈ Ps, P.N = psi.N ∧ Chain psi.N dd P.t)
    {w : ℝ} (hw : 0 < w) (hN : 3 ≤ psi.N) (hr : Reach o LO RO psi) (hc : Chain psi.N dd psi.t) (hz : normSq dd psi.N (wave psi.t psi.N) ≠ 0) (write : Nat → Bool)
    {n : Nat} (hn : 1 ≤ n) {fuel : Nat} (hf : 2 * psi.N ≤ fuel) {g : ℝ} (hg : ∀ φ, g * normSq dd psi.N φ ≤ RCLike.re (sandwich M dd psi.N φ φ)) :
    ∃ j e, dmrgEx o M Ps w T write fuel n psi = some (.ok j) ∧ j.log.getLast? = some e ∧
      inStates Ps dd psi.N (wave j.psi.t psi.N) ≤ (e.en - g) / w ∧ energyOf M dd psi.N (wave j.psi.t psi.N) ≤ e.en := by
  obtain ⟨j, e, -, -, -, h2, h3⟩ := C90_excited_partial hT hS ho hk0 hk hH hP w hN hr hc hz write hn hf
  obtain ⟨-, -, x, hx, hen⟩ := h3 hE
  have hre := congrArg RCLike.re hen
  rw [map_add, RCLike.ofReal_re, RCLike.ofReal_re] at hre
  have h0 := hg (wave j.psi.t psi.N)
  rw [h2, mul_one] at h0
  have hp : 0 ≤ inStates Ps dd psi.N (wave j.psi.t psi.N) := List.sum_nonneg fun y hy => by
    obtain ⟨P, -, rfl⟩ := List.mem_map.1 hy
    positivity
  refine ⟨j, x, e, hx, ?_, ?_⟩
  · rw [le_div_iff₀ hw]
    linarith
  · unfold energyOf
    rw [h2, div_one]
    nlinarith [mul_nonneg hw.le hp]

/-- A weight below the gap does not give the excited state: when the initial state has, with the penalty, an energy below that of all states orthogonal to
`psis`, the final state is not orthogonal to them, whatever the number of sweeps. The energy returned then is not the expectation value of the operator. -/
theorem C90_weight_counterexample {M : Mpo 𝕜} {Ps : List (MPS (Site 𝕜))} {dd : Int → Nat} {T : Tools 𝕜} {o : Ops (Site 𝕜)} (hT : SolverOK T) (hS : SplitOK T)
    (hE : Exact T) (ho : GaugeOK o) {psi : MPS (Site 𝕜)} (hk0 : M.k 0 = 1) (hk : M.k psi.N = 1) (hH : Herm M dd psi.N) (hP : ∀ P ∈ Ps, P.N = psi.N ∧ Chain psi.N dd P.t)
    {w : ℝ} (hw : w ≠ 0) (hN : 3 ≤ psi.N) (hr : Reach o LO RO psi) (hc : Chain psi.N dd psi.t) (hz : normSq dd psi.N (wave psi.t psi.N) ≠ 0) (write : Nat → Bool)
    {n : Nat} (hn : 1 ≤ n) {fuel : Nat} (hf : 2 * psi.N ≤ fuel) {g : ℝ}
    (hg : ∀ φ, inStates Ps dd psi.N φ = 0 → g * normSq dd psi.N φ ≤ RCLike.re (sandwich M dd psi.N φ φ))
    (hlow : (RCLike.re (sandwich M dd psi.N (wave psi.t psi.N) (wave psi.t psi.N)) + w * inStates Ps dd psi.N (wave psi.t psi.N)) / normSq dd psi.N (wave psi.t psi.N) < g) :
    ∃ j, dmrgEx o M Ps w T write fuel n psi = some (.ok j) ∧ inStates Ps dd psi.N (wave j.psi.t psi.N) ≠ 0 ∧
      ∃ e, j.log.getLast? = some e ∧ energyOf M dd psi.N (wave j.psi.t psi.N) ≠ e.en := by
  obtain ⟨j, e, -, -, -, h2, h3⟩ := C90_excited_partial hT hS ho hk0 hk hH hP w hN hr hc hz write hn hf
  obtain ⟨-, hle, x, hx, hen⟩ := h3 hE
  have key : inStates Ps dd psi.N (wave j.psi.t psi.N) ≠ 0 := fun h0 => by
    have hre := congrArg RCLike.re hen
    rw [map_add, RCLike.ofReal_re, RCLike.ofReal_re, h0, mul_zero, add_zero] at hre
    have h4 := hg _ h0
    rw [h2, mul_one, hre] at h4
    have h5 := hle x (List.mem_of_getLast? hx)
    linarith
  refine ⟨j, e, key, x, hx, fun hh => ?_⟩
  have hre := congrArg RCLike.re hen
  rw [map_add, RCLike.ofReal_re, RCLike.ofReal_re] at hre
  unfold energyOf at hh
  rw [h2, div_one] at hh
  exact mul_ne_zero hw key (by linarith)

/-- With two sites no environment is there, and every calculation with at least one sweep stops with an error. -/
theorem C90_two_sites_counterexample (M : Mpo 𝕜) (Ps : List (MPS (Site 𝕜))) (w : ℝ) (T : Tools 𝕜) {o : Ops (Site 𝕜)} (ho : GaugeOK o) {psi : MPS (Site 𝕜)}
    (hN : psi.N = 2) (hP : ∀ P ∈ Ps, P.N = psi.N) (hr : Reach o LO RO psi) (write : Nat → Bool) {n : Nat} (hn : 1 ≤ n) {fuel : Nat} (hf : 1 ≤ fuel) :
    dmrgEx o M Ps w T write fuel n psi = some .throw := by
  obtain ⟨fuel, rfl⟩ : ∃ k, fuel = k + 1 := ⟨fuel - 1, by omega⟩
  obtain ⟨n, rfl⟩ : ∃ k, n = k + 1 := ⟨n - 1, by omega⟩
  have h0 := C40_limits ho.factor hr
  obtain ⟨psi1, e1, s1, n1, l1, r1, _⟩ := positionWith_spec (sL := stepL o) (sR := stepR o) (Q := fun _ => True) ho.factor
    (fun s h hl => stepL_eq h hl) (fun s h hl => stepR_eq h hl) (fun _ _ _ _ => trivial) (fun _ _ _ _ => trivial) h0
    (i := 1) le_rfl (by omega) trivial
  have pr := proj_ex M Ps w T write
  obtain ⟨PH1, d1, f1⟩ := pr.disk (psi := psi1) (PH := exMake psi.N M Ps) (w := none) ⟨⟨rfl, by rw [← n1]; exact make_fits M⟩, by simp [exMake, Function.comp_def], fun q hq => by
    obtain ⟨P, hm, rfl⟩ := List.mem_map.1 hq
    exact ⟨LocalMPO.Mem.make, (hP P hm).trans n1.symm, rfl, by simp⟩⟩ 1
  obtain ⟨PH2, d2, -, g2⟩ := pr.pos f1 (b := 1) le_rfl (by rw [n1, hN]; decide) (by simp)
  have hb : Worker.body (exEnv w T write) ⟨psi1, PH1, []⟩ 1 1 = .throw := by
    unfold Worker.body
    dsimp only
    rw [d2]
    simp only [Res.bind_ok]
    rw [g2]
    have : (exEnv w T write).fac = facG (exProd w) T := rfl
    rw [this]
    unfold facG exProd
    dsimp only
    rw [if_pos]
    · rfl
    · have : gOf psi1 1 M = (M, none, none) := by
        have h := gOf_eq psi1 (n := 0) (j := 0) (by rw [n1, hN]) M
        simpa [LocalMPO.leftEnv, LocalMPO.rightEnv] using h
      rw [this]
      rfl
  unfold dmrgEx Worker.dmrg
  rw [show position o psi 1 = .ok psi1 from e1]
  dsimp only
  unfold Worker.sweeps Worker.sweep
  rw [d1]
  dsimp only
  unfold Worker.bonds
  rw [if_pos (by decide), hb]

/-- Without any operator the calculation uses the first of none. -/
theorem C90_empty_counterexample (T : Tools 𝕜) {o : Ops (Site 𝕜)} (ho : GaugeOK o) {psi : MPS (Site 𝕜)} (hN : 1 ≤ psi.N) (hr : Reach o LO RO psi) (write : Nat → Bool)
    {n : Nat} (hn : 1 ≤ n) (fuel : Nat) : dmrgSet o [] T write fuel n psi = some .ub := by
  obtain ⟨n, rfl⟩ : ∃ k, n = k + 1 := ⟨n - 1, by omega⟩
  have h0 := C40_limits ho.factor hr
  obtain ⟨psi1, e1, s1, n1, l1, r1, _⟩ := positionWith_spec (sL := stepL o) (sR := stepR o) (Q := fun _ => True) ho.factor
    (fun s h hl => stepL_eq h hl) (fun s h hl => stepR_eq h hl) (fun _ _ _ _ => trivial) (fun _ _ _ _ => trivial) h0
    (i := 1) le_rfl (by omega) trivial
  unfold dmrgSet Worker.dmrg
  rw [show position o psi 1 = .ok psi1 from e1]
  rfl

/-! ## The hypotheses can be met -/

/-- `-5 |000><000|`. -/
def exP : Mpo 𝕜 := ⟨fun _ => 1, fun i _ s' s _ => if s' = 0 ∧ s = 0 then (if i = 1 then -5 else 1) else 0⟩

/-- The state `|0>` of one spin. -/
def exZero : Site 𝕜 := ⟨1, 2, 1, fun _ s _ => if s = 0 then 1 else 0⟩

theorem exP_herm (N : Nat) : Herm (exP (𝕜 := 𝕜)) (fun _ => 2) N := by
  have : ∀ (n : Nat) (σ' σ : Int → Nat) w, hop (exP (𝕜 := 𝕜)) n σ' σ w = (starRingEnd 𝕜) (hop exP n σ σ' w) := by
    intro n
    induction n with
    | zero => intros; simp [hop]
    | succ n ih =>
      intro σ' σ w
      simp only [hop]
      rw [map_sum]
      refine sum_congr rfl fun x _ => ?_
      rw [map_mul, ← ih, exP]
      congr 1
      dsimp only
      rw [apply_ite (starRingEnd 𝕜), apply_ite (starRingEnd 𝕜)]
      have h5 : (starRingEnd 𝕜) 5 = 5 := map_ofNat _ 5
      simp [and_comm, h5]
  intro σ' σ _
  exact this N σ' σ 0

theorem exP_value (φ : Fn 𝕜) : sandwich (exP (𝕜 := 𝕜)) (fun _ => 2) 3 φ φ = -5 * ((starRingEnd 𝕜) (overlap (fun _ => 2) 3 (wave (fun _ => exZero) 3) φ) *
    overlap (fun _ => 2) 3 (wave (fun _ => exZero) 3) φ) := by
  simp [sandwich, overlap, sumCfg, elem, hop, exP, wave, amp, exZero, sum_range_succ, Function.update]
  ring

/-- Three spins in `|000>`, to be orthogonal to `|000>`, with the default weight 1: any number of sweeps leaves a state that is not orthogonal. -/
example : ∃ (T : Tools ℂ) (j : Worker.Job (Site ℂ) (Member ℂ × List (Orth ℂ)) (Given ℂ × List (GivenO ℂ)) ℝ),
    dmrgEx exOps exP [⟨3, fun _ => exZero, 0, 4⟩] 1 T (fun _ => false) 6 7 ⟨3, fun _ => exZero, 0, 4⟩ = some (.ok j) ∧
      inStates [⟨3, fun _ => exZero, 0, 4⟩] (fun _ => 2) 3 (wave j.psi.t 3) ≠ 0 := by
  obtain ⟨T, -, h1, h2, h3⟩ := exists_tools (𝕜 := ℂ) fun _ => ⟨2, 1 / 10 ^ 14, 1⟩
  have hr : Reach exOps LO RO (⟨3, fun _ => exZero (𝕜 := ℂ), 0, 4⟩ : MPS (Site ℂ)) := Reach.init 3 _ (by decide) fun _ _ _ => by simp [exOps, exZero]
  have hc : Chain 3 (fun _ => 2) (fun _ => exZero (𝕜 := ℂ)) := ⟨rfl, rfl, fun _ _ _ => rfl, fun _ _ _ => rfl⟩
  have hone : normSq (fun _ => 2) 3 (wave (fun _ => exZero (𝕜 := ℂ)) 3) = 1 := by
    simp [normSq, sumCfg, wave, amp, exZero, sum_range_succ, Function.update]
  have hov : overlap (fun _ => 2) 3 (wave (fun _ => exZero (𝕜 := ℂ)) 3) (wave (fun _ => exZero (𝕜 := ℂ)) 3) = 1 := by
    simp [overlap, sumCfg, wave, amp, exZero, Function.update]
  obtain ⟨j, e, h, -⟩ := C90_weight_counterexample (M := exP) (Ps := [⟨3, fun _ => exZero (𝕜 := ℂ), 0, 4⟩]) (psi := ⟨3, fun _ => exZero (𝕜 := ℂ), 0, 4⟩) (w := 1) (g := 0)
    h1 h2 h3 exOps_ok rfl rfl (exP_herm 3) (by simpa using hc) (by norm_num) (by decide) hr hc (by rw [hone]; norm_num) (fun _ => false) (n := 7) (by decide) (fuel := 6) (by decide)
    (fun φ h0 => by
      have h0' : overlap (fun _ => 2) 3 (wave (fun _ => exZero (𝕜 := ℂ)) 3) φ = 0 := by simpa [inStates] using h0
      simp only [exP_value, h0']
      simp)
    (by
      simp only [exP_value, hov, inStates, List.map_cons, List.map_nil, List.sum_cons, List.sum_nil, hone]
      norm_num)
  exact ⟨T, j, e, h⟩

/-- The same as a set of the flip of all spins and the projector. -/
example : ∃ (T : Tools ℂ) (j : Worker.Job (Site ℂ) (List (Member ℂ)) (List (Given ℂ)) ℝ),
    dmrgSet exOps [exM, exP] T (fun k => k == 2) 6 3 ⟨3, fun _ => exSite, 0, 4⟩ = some (.ok j) ∧ (j.log.map (·.en)).Pairwise (fun a b => b ≤ a) := by
  obtain ⟨T, -, h1, h2, h3⟩ := exists_tools (𝕜 := ℂ) fun _ => ⟨2, 1 / 10 ^ 14, 1⟩
  have hr : Reach exOps LO RO (⟨3, fun _ => exSite (𝕜 := ℂ), 0, 4⟩ : MPS (Site ℂ)) := Reach.init 3 _ (by decide) fun _ _ _ => by simp [exOps, exSite]
  have hc : Chain 3 (fun _ => 2) (fun _ => exSite (𝕜 := ℂ)) := ⟨rfl, rfl, fun _ _ _ => rfl, fun _ _ _ => rfl⟩
  have hz : normSq (fun _ => 2) 3 (wave (fun _ => exSite (𝕜 := ℂ)) 3) ≠ 0 := by rw [ex_norm]; norm_num
  obtain ⟨j, e, -, -, -, h⟩ := C90_set_partial (Ms := [exM, exP]) (by simp) (psi := ⟨3, fun _ => exSite (𝕜 := ℂ), 0, 4⟩) h1 h2 exOps_ok
    (by
      intro M hM
      simp only [List.mem_cons, List.not_mem_nil, or_false] at hM
      rcases hM with rfl | rfl
      · exact ⟨rfl, rfl, exM_herm 3⟩
      · exact ⟨rfl, rfl, exP_herm 3⟩) (by decide) hr hc hz (fun k => k == 2) (n := 3) (by decide) (fuel := 6) (by decide)
  exact ⟨T, j, e, (h h3).1⟩

/-- With a large weight: the bound on the overlap, from `-5` as a lower bound. -/
example : ∃ (T : Tools ℂ) (j : Worker.Job (Site ℂ) (Member ℂ × List (Orth ℂ)) (Given ℂ × List (GivenO ℂ)) ℝ) (e : _),
    dmrgEx exOps exP [⟨3, fun _ => exZero, 0, 4⟩] 100 T (fun _ => false) 6 2 ⟨3, fun _ => exSite, 0, 4⟩ = some (.ok j) ∧ j.log.getLast? = some e ∧
      inStates [⟨3, fun _ => exZero, 0, 4⟩] (fun _ => 2) 3 (wave j.psi.t 3) ≤ (e.en - (-5)) / 100 := by
  obtain ⟨T, -, h1, h2, h3⟩ := exists_tools (𝕜 := ℂ) fun _ => ⟨2, 1 / 10 ^ 14, 1⟩
  have hr : Reach exOps LO RO (⟨3, fun _ => exSite (𝕜 := ℂ), 0, 4⟩ : MPS (Site ℂ)) := Reach.init 3 _ (by decide) fun _ _ _ => by simp [exOps, exSite]
  have hc : Chain 3 (fun _ => 2) (fun _ => exSite (𝕜 := ℂ)) := ⟨rfl, rfl, fun _ _ _ => rfl, fun _ _ _ => rfl⟩
  have hc' : Chain 3 (fun _ => 2) (fun _ => exZero (𝕜 := ℂ)) := ⟨rfl, rfl, fun _ _ _ => rfl, fun _ _ _ => rfl⟩
  have hz : normSq (fun _ => 2) 3 (wave (fun _ => exSite (𝕜 := ℂ)) 3) ≠ 0 := by rw [ex_norm]; norm_num
  obtain ⟨j, e, h, hl, hb, -⟩ := C90_orthogonal_partial (M := exP) (Ps := [⟨3, fun _ => exZero (𝕜 := ℂ), 0, 4⟩]) (psi := ⟨3, fun _ => exSite (𝕜 := ℂ), 0, 4⟩) (w := 100)
    (g := -5) h1 h2 h3 exOps_ok rfl rfl (exP_herm 3) (by simpa using hc') (by norm_num) (by decide) hr hc hz (fun _ => false) (n := 2) (by decide) (fuel := 6) (by decide)
    (fun φ => by
      have hle : ‖overlap (fun _ => 2) 3 (wave (fun _ => exZero (𝕜 := ℂ)) 3) φ‖ ^ 2 ≤ normSq (fun _ => 2) 3 φ := by
        simp [normSq, overlap, sumCfg, wave, amp, exZero, sum_range_succ, Function.update]
        simp only [add_assoc]
        exact le_add_of_nonneg_right (by positivity)
      have e : (-5 * ((‖overlap (fun _ => 2) 3 (wave (fun _ => exZero (𝕜 := ℂ)) 3) φ‖ : ℂ)) ^ 2) =
          ((-5 * ‖overlap (fun _ => 2) 3 (wave (fun _ => exZero (𝕜 := ℂ)) 3) φ‖ ^ 2 : ℝ) : ℂ) := by push_cast; ring
      rw [exP_value, RCLike.conj_mul]
      change _ ≤ (-5 * ((‖overlap (fun _ => 2) 3 (wave (fun _ => exZero (𝕜 := ℂ)) 3) φ‖ : ℂ)) ^ 2).re
      rw [e, Complex.ofReal_re]
      dsimp only
      linarith)
  exact ⟨T, j, e, h, hl, hb⟩

/-- Two spins, and no operator. -/
example (T : Tools ℂ) : dmrgEx exOps exP [⟨2, fun _ => exZero, 0, 3⟩] 1 T (fun _ => false) 6 7 ⟨2, fun _ => exZero, 0, 3⟩ = some .throw :=
  C90_two_sites_counterexample exP [⟨2, fun _ => exZero (𝕜 := ℂ), 0, 3⟩] 1 T exOps_ok rfl (by simp)
    (Reach.init 2 (fun _ => exZero (𝕜 := ℂ)) (by decide) fun _ _ _ => by simp [exOps, exZero]) (fun _ => false) (by decide) (by decide)

example (T : Tools ℂ) : dmrgSet exOps [] T (fun _ => false) 6 7 ⟨3, fun _ => exZero, 0, 4⟩ = some .ub :=
  C90_empty_counterexample T exOps_ok (by decide) (Reach.init 3 (fun _ => exZero (𝕜 := ℂ)) (by decide) fun _ _ _ => by simp [exOps, exZero])
    (fun _ => false) (by decide) 6

end Verif.DmrgNum
