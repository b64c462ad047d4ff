import Verif.MPS.Worker
import Verif.MPS.DmrgC73

/-!
# DMRG with any Hermitian form

`DMRGWorker` with a projected operator whose matrix elements are those of some Hermitian form `tot` between the states that differ in two
tensors. The argument of `DmrgC73.lean` does not need more. In `Excited.lean` this is used for sums of operators (`LocalMPOSet`) and for an
operator with projectors (`LocalMPO_MPS`).
-/

noncomputable section

namespace Verif.DmrgNum

open Finset Verif.Limits

variable {𝕜 : Type*} [RCLike 𝕜] {P G : Type*}

/-- A wavefunction. -/
abbrev Fn (𝕜 : Type*) := (Int → Nat) → 𝕜

/-- The energy of a wavefunction, for any form. -/
def energyT (tot : Fn 𝕜 → Fn 𝕜 → 𝕜) (dd : Int → Nat) (N : Nat) (φ : Fn 𝕜) : ℝ := RCLike.re (tot φ φ) / normSq dd N φ

/-- Linear maps on the space at the sites `n+1` and `n+2` of a state, the last `j` sites being on the right. -/
abbrev EffT (𝕜 : Type*) [RCLike 𝕜] := (t : Int → Site 𝕜) → (n j : Nat) →
  Block 𝕜 (t (n + 1)).l (t (n + 1)).d (t (n + 1 + 1)).d (t (n + 1 + 1)).r →ₗ[𝕜] Block 𝕜 (t (n + 1)).l (t (n + 1)).d (t (n + 1 + 1)).d (t (n + 1 + 1)).r

/-- The form is Hermitian, and the linear maps are its projections. -/
structure Meets (tot : Fn 𝕜 → Fn 𝕜 → 𝕜) (N : Nat) (dd : Int → Nat) (eff : EffT 𝕜) : Prop where
  elem : ∀ {t : Int → Site 𝕜}, Chain N dd t → ∀ {n j : Nat}, n + 2 + j = N → ∀ {p q : Site 𝕜 × Site 𝕜}, Fit t (n + 1) p → Fit t (n + 1) q →
    tot (wave (put2 t (n + 1) p) N) (wave (put2 t (n + 1) q) N) = inner 𝕜 (bl t (n + 1) p) (eff t n j (bl t (n + 1) q))
  conj : ∀ φ' φ, (starRingEnd 𝕜) (tot φ' φ) = tot φ φ'

/-- The projections are Hermitian. -/
theorem Meets.symm {tot : Fn 𝕜 → Fn 𝕜 → 𝕜} {N : Nat} {dd : Int → Nat} {eff : EffT 𝕜} (hm : Meets tot N dd eff) {t : Int → Site 𝕜} (c : Chain N dd t)
    {n j : Nat} (h : n + 2 + j = N) : (eff t n j).IsSymmetric := by
  intro x y
  have fx : Fit t (n + 1) (trivL x) := ⟨rfl, rfl, rfl, rfl, rfl⟩
  have fy : Fit t (n + 1) (trivL y) := ⟨rfl, rfl, rfl, rfl, rfl⟩
  have bx : bl t (n + 1) (trivL x) = x := by ext i; exact bval_trivL x i
  have by' : bl t (n + 1) (trivL y) = y := by ext i; exact bval_trivL y i
  have h1 := hm.elem c h fx fy
  have h2 := hm.elem c h fy fx
  rw [bx, by'] at h1 h2
  rw [← h1, ← inner_conj_symm, ← h2, hm.conj]

/-- From the product of the two tensors to the new ones: dmrg.h:418-430, for a projected operator whose `product` at bond `b`, given what
was prepared in `g`, is `prod g b` (an error when an operator is not set). -/
def facG (prod : G → Int → (l d₁ d₂ r : Nat) → Res (Block 𝕜 l d₁ d₂ r → Block 𝕜 l d₁ d₂ r)) (T : Tools 𝕜) (n : Nat) (psi : MPS (Site 𝕜)) (g : G) (b : Int) (dir : Dir) :
    Res ((Site 𝕜 × Site 𝕜) × ℝ) :=
  let A := psi.t b
  let B := psi.t (b + 1)
  let size := A.l * B.r * A.d * B.d
  (prod g b A.l A.d B.d B.r).bind fun f =>
    (first (Solvers.davidson f T.diag (T.rnd A.l A.d B.d B.r) T.fuel (T.opts n) size size T.junk [blk A B])).bind fun q =>
      .ok (T.split n dir A.l A.d B.d B.r q.1, q.2)

/-- The expectation value and the norm depend on the product of two neighbouring tensors only. -/
theorem same_valueG {tot : Fn 𝕜 → Fn 𝕜 → 𝕜} {N : Nat} {dd : Int → Nat} {eff : EffT 𝕜} (hm : Meets tot N dd eff) {t : Int → Site 𝕜} (c : Chain N dd t) {b : Int} (h1 : 1 ≤ b) (h2 : b < N)
    {p q : Site 𝕜 × Site 𝕜} (fp : Fit t b p) (fq : Fit t b q) (e : bl t b p = bl t b q) :
    tot (wave (put2 t b p) N) (wave (put2 t b p) N) = tot (wave (put2 t b q) N) (wave (put2 t b q) N) ∧
      normSq dd N (wave (put2 t b p) N) = normSq dd N (wave (put2 t b q) N) := by
  obtain ⟨n, rfl⟩ : ∃ n : Nat, b = (n : Int) + 1 := ⟨(b - 1).toNat, by omega⟩
  obtain ⟨j, hj⟩ : ∃ j, n + 2 + j = N := ⟨N - (n + 2), by omega⟩
  refine ⟨by rw [hm.elem c hj fp fp, hm.elem c hj fq fq, e], ?_⟩
  have a1 := eff_lv c (M := idM) rfl hj fp fp
  have a2 := eff_lv c (M := idM) rfl hj fq fq
  rw [lv_norm (chain_put2 c h1 h2 fp)] at a1
  rw [lv_norm (chain_put2 c h1 h2 fq), ← e, ← a1] at a2
  exact_mod_cast a2.symm

/-- `position` changes neither. -/
theorem position_valueG {tot : Fn 𝕜 → Fn 𝕜 → 𝕜} {dd : Int → Nat} {eff : EffT 𝕜} {o : Ops (Site 𝕜)} (ho : GaugeOK o) {psi : MPS (Site 𝕜)} (hm : Meets tot psi.N dd eff) (hs : Sound o LO RO psi)
    (hc : Chain psi.N dd psi.t) {i : Int} (h1 : 1 ≤ i) (h2 : i ≤ psi.N) :
    ∃ psi', position o psi i = .ok psi' ∧ psi'.N = psi.N ∧ Chain psi.N dd psi'.t ∧
      tot (wave psi'.t psi.N) (wave psi'.t psi.N) = tot (wave psi.t psi.N) (wave psi.t psi.N) ∧
      normSq dd psi.N (wave psi'.t psi.N) = normSq dd psi.N (wave psi.t psi.N) := by
  have lk : ∀ a b, o.link a b = true ↔ a.r = b.l := fun a b => by rw [ho.link]; simp
  have step : ∀ (s : MPS (Site 𝕜)) (b : Int) (p : Site 𝕜 × Site 𝕜), s.N = psi.N → Chain psi.N dd s.t → 1 ≤ b → b < psi.N → Same (s.t b) (s.t (b + 1)) p →
      Chain psi.N dd (set2 s b p).t ∧
      tot (wave (set2 s b p).t psi.N) (wave (set2 s b p).t psi.N) = tot (wave s.t psi.N) (wave s.t psi.N) ∧
      normSq dd psi.N (wave (set2 s b p).t psi.N) = normSq dd psi.N (wave s.t psi.N) := by
    intro s b p _ c b1 b2 hp
    have fp : Fit s.t b p := ⟨hp.l, hp.d₁, hp.m, hp.d₂, hp.r⟩
    have := same_valueG hm c b1 b2 fp (fit_self c b1 b2) (by
      ext i
      exact hp.val _ i.1.2 _ i.2.1.2 _ i.2.2.1.2 _ i.2.2.2.2)
    rw [put2_self] at this
    exact ⟨chain_put2 c b1 b2 fp, this⟩
  obtain ⟨s', e, _, hN, _, _, hq⟩ := positionWith_spec (sL := stepL o) (sR := stepR o) (i := i)
    (Q := fun s => s.N = psi.N ∧ Chain psi.N dd s.t ∧
      tot (wave s.t psi.N) (wave s.t psi.N) = tot (wave psi.t psi.N) (wave psi.t psi.N) ∧
      normSq dd psi.N (wave s.t psi.N) = normSq dd psi.N (wave psi.t psi.N)) ho.factor
    (fun s h hl => stepL_eq h hl) (fun s h hl => stepR_eq h hl)
    (fun s h hl hq => by
      have hlo := h.lo
      obtain ⟨c', e1, e2⟩ := step s (s.l + 1) (o.orthL (s.t (s.l + 1)) (s.t (s.l + 1 + 1))) hq.1 hq.2.1 (by omega) (by rw [← hq.1]; omega)
        (ho.left _ _ ((lk _ _).1 (h.linked _ (by omega) (by omega)))).1
      exact ⟨hq.1, c', e1.trans hq.2.2.1, e2.trans hq.2.2.2⟩)
    (fun s h hr hq => by
      have hhi := h.hi
      obtain ⟨c', e1, e2⟩ := step s (s.r - 2) (o.orthR (s.t (s.r - 2)) (s.t (s.r - 2 + 1))) hq.1 hq.2.1 (by omega) (by rw [← hq.1]; omega)
        (ho.right _ _ ((lk _ _).1 (h.linked _ (by omega) (by omega)))).1
      exact ⟨hq.1, c', e1.trans hq.2.2.1, e2.trans hq.2.2.2⟩)
    hs h1 h2 ⟨rfl, hc, rfl, rfl⟩
  exact ⟨s', e, hq⟩

/-- The energy that is reported and the tensors that are put in place at a bond. -/
theorem facG_spec {tot : Fn 𝕜 → Fn 𝕜 → 𝕜} {N : Nat} {dd : Int → Nat} {eff : EffT 𝕜} (hm : Meets tot N dd eff)
    {prod : G → Int → (l d₁ d₂ r : Nat) → Res (Block 𝕜 l d₁ d₂ r → Block 𝕜 l d₁ d₂ r)} {T : Tools 𝕜} (hT : SolverOK T) (hS : SplitOK T)
    {psi : MPS (Site 𝕜)} (c : Chain N dd psi.t) (hN : 3 ≤ N) (hz : normSq dd N (wave psi.t N) ≠ 0) {b : Int} (h1 : 1 ≤ b) (h2 : b < N)
    (hl : ∀ i : Int, 1 ≤ i → i ≤ b - 1 → LO (psi.t i)) (hr : ∀ i : Int, b + 2 ≤ i → i ≤ N → RO (psi.t i)) (m : Nat) (dir : Dir) {g : G}
    (hg : ∀ n j : Nat, b = n + 1 → n + 2 + j = N → prod g (n + 1) _ _ _ _ = .ok ⇑(eff psi.t n j)) :
    ∃ p en, facG prod T m psi g b dir = .ok (p, en) ∧
      Fit psi.t b p ∧ (dir = .left → LO p.1) ∧ (dir = .right → RO p.2) ∧
      en ≤ energyT tot dd N (wave psi.t N) ∧ (∃ φ, normSq dd N φ = 1 ∧ tot φ φ = (en : 𝕜)) ∧
      normSq dd N (wave (put2 psi.t b p) N) = 1 ∧ (Exact T → energyT tot dd N (wave (put2 psi.t b p) N) = en) := by
  obtain ⟨n, rfl⟩ : ∃ n : Nat, b = (n : Int) + 1 := ⟨(b - 1).toNat, by omega⟩
  obtain ⟨j, hj⟩ : ∃ j, n + 2 + j = N := ⟨N - (n + 2), by omega⟩
  have hl' : ∀ i : Int, 1 ≤ i → i ≤ n → LO (psi.t i) := fun i i1 i2 => hl i i1 (by omega)
  have hr' : ∀ i : Int, (n : Int) + 3 ≤ i → i ≤ N → RO (psi.t i) := fun i i1 i2 => hr i (by omega) i2
  have fs := fit_self c h1 h2
  have nx := norm_eq c hj hl' hr' fs
  have ex := hm.elem c hj fs fs
  rw [put2_self, bl_self] at nx ex
  have hx : blk (psi.t ((n : Int) + 1)) (psi.t ((n : Int) + 1 + 1)) ≠ 0 := by
    intro h0
    rw [h0, norm_zero] at nx
    exact hz (by rw [nx]; ring)
  obtain ⟨en, y, hd, hy, hey, hle, -⟩ := Solvers.C69_ground (hm.symm c hj) hT.diag (fun k => hT.rnd _ _ _ _ k ⟨_, hx⟩) hT.fuel (T.opts m)
    ((psi.t ((n : Int) + 1)).l * (psi.t ((n : Int) + 1 + 1)).r * (psi.t ((n : Int) + 1)).d * (psi.t ((n : Int) + 1 + 1)).d) T.junk hx
  obtain ⟨p1, p2, p3, p4, p5⟩ := hS.fits m dir _ _ _ _ y hy
  have fp : Fit psi.t ((n : Int) + 1) (T.split m dir _ _ _ _ y) := ⟨p1, p2, p3, p4, p5⟩
  refine ⟨T.split m dir _ _ _ _ y, en, ?_, fp, ?_, ?_, ?_, ?_, ?_, ?_⟩
  · unfold facG
    dsimp only
    rw [hg n j rfl hj]
    simp only [Res.bind_ok]
    rw [hd]
    rfl
  · rintro rfl; exact hS.left m _ _ _ _ y hy
  · rintro rfl; exact hS.right m _ _ _ _ y hy
  · unfold energyT
    rw [ex, nx]
    exact hle
  · refine ⟨wave (put2 psi.t ((n : Int) + 1) (trivL y)) N, ?_, ?_⟩
    · rw [norm_eq c hj hl' hr' ⟨rfl, rfl, rfl, rfl, rfl⟩, show bl psi.t ((n : Int) + 1) (trivL y) = y by ext i; exact bval_trivL y i, hy, one_pow]
    · rw [hm.elem c hj ⟨rfl, rfl, rfl, rfl, rfl⟩ ⟨rfl, rfl, rfl, rfl, rfl⟩,
        show bl psi.t ((n : Int) + 1) (trivL y) = y by ext i; exact bval_trivL y i, hey]
  · rw [norm_eq c hj hl' hr' fp, EuclideanSpace.norm_sq_eq]
    exact hS.one m dir _ _ _ _ y hy
  · intro hE
    have eb : bl psi.t ((n : Int) + 1) (T.split m dir _ _ _ _ y) = y := by ext i; exact hE m dir _ _ _ _ y hy i
    unfold energyT
    rw [norm_eq c hj hl' hr' fp, hm.elem c hj fp fp, eb, hy, hey, RCLike.ofReal_re]
    simp

/-! ## The whole calculation -/

/-- What holds of the state and of the log during a calculation, `e₀` being the energy of the initial state. -/
structure InvG (tot : Fn 𝕜 → Fn 𝕜 → 𝕜) (N : Nat) (dd : Int → Nat) (ex : Prop) (e₀ : ℝ) (psi : MPS (Site 𝕜)) (log : List (Worker.Entry (Site 𝕜) G ℝ)) : Prop where
  size : psi.N = N
  chain : Chain N dd psi.t
  nz : normSq dd N (wave psi.t N) ≠ 0
  one : log ≠ [] → normSq dd N (wave psi.t N) = 1
  up : ∀ e ∈ log, e.en ≤ energyT tot dd N (wave e.t N)
  real : ∀ e ∈ log, ∃ φ, normSq dd N φ = 1 ∧ tot φ φ = (e.en : 𝕜)
  first : ∀ e, log.head? = some e → energyT tot dd N (wave e.t N) = e₀
  start : log = [] → energyT tot dd N (wave psi.t N) = e₀
  last : ex → ∀ e, log.getLast? = some e → energyT tot dd N (wave psi.t N) = e.en
  mono : ex → log.IsChain fun a b => b.en ≤ a.en

theorem step_goodG {tot : Fn 𝕜 → Fn 𝕜 → 𝕜} {N : Nat} {dd : Int → Nat} {eff : EffT 𝕜} (hm : Meets tot N dd eff)
    {prod : G → Int → (l d₁ d₂ r : Nat) → Res (Block 𝕜 l d₁ d₂ r → Block 𝕜 l d₁ d₂ r)} {T : Tools 𝕜} (hT : SolverOK T) (hS : SplitOK T) {o : Ops (Site 𝕜)} (ho : GaugeOK o)
    (hN : 3 ≤ N) (e₀ : ℝ) {env : Worker.Env (Site 𝕜) P G ℝ} {g : MPS (Site 𝕜) → Int → G} (hfac : env.fac = facG prod T)
    (hg : ∀ psi : MPS (Site 𝕜), psi.N = N → Chain N dd psi.t → ∀ n j : Nat, n + 2 + j = N → prod (g psi (n + 1)) (n + 1) _ _ _ _ = .ok ⇑(eff psi.t n j)) :
    Worker.GoodQ o LO RO env g (InvG tot N dd (Exact T) e₀) := by
  intro psi log b ha dir hs hq h1 h2 hla hra
  have hNN := hq.size
  have lk : ∀ a b, o.link a b = true ↔ a.r = b.l := fun a b => by rw [ho.link]; simp
  obtain ⟨p, en, e, fp, pL, pR, hle, hreal, hone, hex⟩ := facG_spec hm hT hS (prod := prod) hq.chain hN hq.nz h1 (by omega)
    (fun i i1 i2 => hs.left i i1 (by omega)) (fun i i1 i2 => hs.right i (by omega) (by omega)) log.length dir
    (g := g psi b) (fun n j hb hj => by subst hb; exact hg psi hNN hq.chain n j hj)
  have hok : (Call.svdBond b p dir).Ok o LO RO psi := by
    refine ⟨h1, h2, (lk _ _).2 fp.m, fun hb => (lk _ _).2 ?_, fun hb => (lk _ _).2 ?_, pL, pR⟩
    · rw [fp.l, hq.chain.link (b - 1) (by omega) (by omega), show b - 1 + 1 = b by ring]
    · rw [fp.r, hq.chain.link (b + 1) (by omega) (by omega), show b + 1 + 1 = b + 2 by ring]
  have e' : env.fac log.length psi (g psi b) b dir = .ok (p, en) := by rw [hfac]; exact e
  refine ⟨p, en, e', hok, fun psi' e2 => ?_⟩
  obtain ⟨-, n', t', -, -⟩ := svdBond_sound hs hok e2
  have et : psi'.t = put2 psi.t b p := t'
  refine ⟨n'.trans hNN, ?_, ?_, ?_, ?_, ?_, ?_, ?_, ?_, ?_⟩
  · rw [et]; exact chain_put2 hq.chain h1 (by omega) fp
  · rw [et, hone]; exact one_ne_zero
  · intro _; rw [et, hone]
  · intro x hx
    rcases List.mem_append.1 hx with hx | hx
    · exact hq.up x hx
    · rw [List.mem_singleton] at hx; subst hx; exact hle
  · intro x hx
    rcases List.mem_append.1 hx with hx | hx
    · exact hq.real x hx
    · rw [List.mem_singleton] at hx; subst hx; exact hreal
  · intro x hx
    cases log with
    | nil => simp only [List.nil_append, List.head?_cons, Option.some.injEq] at hx; subst hx; exact hq.start rfl
    | cons y log => exact hq.first x hx
  · intro h; exact absurd h (by simp)
  · intro hE x hx
    rw [List.getLast?_append, List.getLast?_singleton, Option.some_or, Option.some.injEq] at hx
    subst hx
    rw [et]
    exact hex hE
  · intro hE
    refine List.isChain_append.2 ⟨hq.mono hE, List.isChain_singleton _, fun x hx y hy => ?_⟩
    simp only [List.head?_cons, Option.mem_def, Option.some.injEq] at hy
    subst hy
    rw [← hq.last hE x hx]
    exact hle

/-- What there is at the start, and what is needed of the projected operator. -/
structure Setup (tot : Fn 𝕜 → Fn 𝕜 → 𝕜) (dd : Int → Nat) (eff : EffT 𝕜) (prod : G → Int → (l d₁ d₂ r : Nat) → Res (Block 𝕜 l d₁ d₂ r → Block 𝕜 l d₁ d₂ r))
    (T : Tools 𝕜) (env : Worker.Env (Site 𝕜) P G ℝ) (F : MPS (Site 𝕜) → P → Option Int → Prop) (g : MPS (Site 𝕜) → Int → G) (N : Nat) (PH : P) : Prop where
  meets : Meets tot N dd eff
  fac : env.fac = facG prod T
  norm : env.norm = normalizeSite
  proj : Worker.Proj env F g
  prod : ∀ psi : MPS (Site 𝕜), psi.N = N → Chain N dd psi.t → ∀ n j : Nat, n + 2 + j = N → prod (g psi (n + 1)) (n + 1) _ _ _ _ = .ok ⇑(eff psi.t n j)
  start : ∀ psi : MPS (Site 𝕜), psi.N = N → F psi PH none

/-- The calculation from beginning to end. -/
theorem run_specG {tot : Fn 𝕜 → Fn 𝕜 → 𝕜} {dd : Int → Nat} {eff : EffT 𝕜} {prod : G → Int → (l d₁ d₂ r : Nat) → Res (Block 𝕜 l d₁ d₂ r → Block 𝕜 l d₁ d₂ r)}
    {T : Tools 𝕜} {o : Ops (Site 𝕜)} (hT : SolverOK T) (hS : SplitOK T) (ho : GaugeOK o) {psi : MPS (Site 𝕜)} {env : Worker.Env (Site 𝕜) P G ℝ}
    {F : MPS (Site 𝕜) → P → Option Int → Prop} {g : MPS (Site 𝕜) → Int → G} {PH : P} (hs : Setup tot dd eff prod T env F g psi.N PH) (hN : 3 ≤ psi.N) (hr : Reach o LO RO psi)
    (hc : Chain psi.N dd psi.t) (hz : normSq dd psi.N (wave psi.t psi.N) ≠ 0) {n : Nat} (hn : 1 ≤ n) {fuel : Nat} (hf : 2 * psi.N ≤ fuel) :
    ∃ j, Worker.dmrg o env fuel n psi PH = some (.ok j) ∧ j.log ≠ [] ∧ (j.log.map fun e => (e.b, e.ha)) = (List.replicate n (Dmrg.order psi.N)).flatten ∧
      InvG tot psi.N dd (Exact T) (energyT tot dd psi.N (wave psi.t psi.N)) j.psi j.log := by
  obtain ⟨psi1, e1, n1, c1, s1, z1⟩ := position_valueG ho hs.meets (C40_limits ho.factor hr) hc (i := 1) le_rfl (by omega)
  have hq : InvG (G := G) tot psi.N dd (Exact T) (energyT tot dd psi.N (wave psi.t psi.N)) psi1 [] :=
    ⟨n1, c1, by rw [z1]; exact hz, by simp, by simp, by simp, by simp, fun _ => by unfold energyT; rw [s1, z1], by simp, fun _ => List.isChain_nil⟩
  obtain ⟨j2, e, s2, q2, n2, l2, r2, hm⟩ := Worker.dmrg_keeps ho.factor hs.proj (step_goodG hs.meets hT hS ho hN _ hs.fac hs.prod) hr (by omega) e1 hq
    (hs.start psi1 n1) n hf
  have hne : j2.log ≠ [] := by
    intro h
    rw [h] at hm
    obtain ⟨k, rfl⟩ : ∃ k, n = k + 1 := ⟨n - 1, by omega⟩
    have := congrArg List.length hm
    simp [List.replicate_succ, Dmrg.order] at this
    omega
  have hone : frob (j2.psi.t 1) = 1 := by
    rw [frob_eq q2.chain (by omega) fun i i1 i2 => s2.right i (by omega) (by omega), q2.one hne]
  have ht : Function.update j2.psi.t 1 (env.norm (j2.psi.t 1)) = j2.psi.t := by
    rw [show env.norm (j2.psi.t 1) = j2.psi.t 1 by rw [hs.norm]; exact normalize_one hone, Function.update_eq_self]
  rw [ht] at e
  exact ⟨_, e, hne, hm, q2⟩

/-- What a calculation gives: without error and in order; each energy is the value of the form in some state of norm 1 and not above that of
the state at the time; when nothing is truncated they never increase and the last one is that of the final state. -/
theorem run_all {tot : Fn 𝕜 → Fn 𝕜 → 𝕜} {dd : Int → Nat} {eff : EffT 𝕜} {prod : G → Int → (l d₁ d₂ r : Nat) → Res (Block 𝕜 l d₁ d₂ r → Block 𝕜 l d₁ d₂ r)}
    {T : Tools 𝕜} {o : Ops (Site 𝕜)} (hT : SolverOK T) (hS : SplitOK T) (ho : GaugeOK o) {psi : MPS (Site 𝕜)} {env : Worker.Env (Site 𝕜) P G ℝ}
    {F : MPS (Site 𝕜) → P → Option Int → Prop} {g : MPS (Site 𝕜) → Int → G} {PH : P} (hs : Setup tot dd eff prod T env F g psi.N PH) (hN : 3 ≤ psi.N) (hr : Reach o LO RO psi)
    (hc : Chain psi.N dd psi.t) (hz : normSq dd psi.N (wave psi.t psi.N) ≠ 0) {n : Nat} (hn : 1 ≤ n) {fuel : Nat} (hf : 2 * psi.N ≤ fuel) :
    ∃ j, Worker.dmrg o env fuel n psi PH = some (.ok j) ∧
      (j.log.map fun e => (e.b, e.ha)) = (List.replicate n (Dmrg.order psi.N)).flatten ∧
      (∀ e ∈ j.log, (∃ φ, normSq dd psi.N φ = 1 ∧ tot φ φ = (e.en : 𝕜)) ∧ e.en ≤ energyT tot dd psi.N (wave e.t psi.N)) ∧
      (∀ e, j.log.head? = some e → e.en ≤ energyT tot dd psi.N (wave psi.t psi.N)) ∧
      j.psi.N = psi.N ∧ Chain psi.N dd j.psi.t ∧ normSq dd psi.N (wave j.psi.t psi.N) = 1 ∧
      (Exact T → (j.log.map (·.en)).Pairwise (fun a b => b ≤ a) ∧ (∀ e ∈ j.log, e.en ≤ energyT tot dd psi.N (wave psi.t psi.N)) ∧
        ∃ e, j.log.getLast? = some e ∧ tot (wave j.psi.t psi.N) (wave j.psi.t psi.N) = (e.en : 𝕜)) := by
  obtain ⟨j, e, hne, hm, q⟩ := run_specG hT hS ho hs hN hr hc hz hn hf
  refine ⟨j, e, hm, fun x hx => ⟨q.real x hx, q.up x hx⟩, fun x hx => ?_, q.size, q.chain, q.one hne, fun hE => ?_⟩
  · rw [← q.first x hx]
    exact q.up x (List.mem_of_mem_head? hx)
  have hp : j.log.Pairwise fun a b => b.en ≤ a.en := by
    haveI : IsTrans (Worker.Entry (Site 𝕜) G ℝ) fun a b => b.en ≤ a.en := ⟨fun _ _ _ h1 h2 => h2.trans h1⟩
    exact List.isChain_iff_pairwise.1 (q.mono hE)
  refine ⟨List.pairwise_map.2 hp, ?_, ?_⟩
  · intro x hx
    cases hl : j.log with
    | nil => exact absurd hl hne
    | cons y l =>
      have hy := q.first y (by rw [hl]; rfl)
      have hyu := q.up y (by rw [hl]; exact List.mem_cons_self)
      rw [hy] at hyu
      rw [hl] at hx hp
      rcases List.mem_cons.1 hx with rfl | hx
      · exact hyu
      · exact ((List.pairwise_cons.1 hp).1 x hx).trans hyu
  · cases hl : j.log.getLast? with
    | none => exact absurd (List.getLast?_eq_none_iff.1 hl) hne
    | some x =>
      refine ⟨x, rfl, ?_⟩
      have h := q.last hE x hl
      unfold energyT at h
      rw [q.one hne, div_one] at h
      rw [← h]
      exact (RCLike.conj_eq_iff_re.1 (hs.meets.conj _ _)).symm

end Verif.DmrgNum
