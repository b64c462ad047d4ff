import Verif.MPS.DmrgNumEff
import Verif.Solvers.DavidsonEx

/-! # C73: DMRG is variational, and without truncation it never raises the energy -/

noncomputable section

namespace Verif.DmrgNum

open Finset Verif.Limits

variable {𝕜 : Type*} [RCLike 𝕜]

/-- New tensors with the same outer dimensions and the same product. -/
structure Same (a b : Site 𝕜) (p : Site 𝕜 × Site 𝕜) : Prop where
  l : p.1.l = a.l
  d₁ : p.1.d = a.d
  m : p.1.r = p.2.l
  d₂ : p.2.d = b.d
  r : p.2.r = b.r
  val : ∀ i < a.l, ∀ s₁ < a.d, ∀ s₂ < b.d, ∀ k < b.r, bval p.1 p.2 i s₁ s₂ k = bval a b i s₁ s₂ k

/-- The factorization in `position`: exact, with one tensor orthogonal. -/
structure GaugeOK (o : Ops (Site 𝕜)) : Prop where
  link : ∀ a b, o.link a b = decide (a.r = b.l)
  left : ∀ a b, a.r = b.l → Same a b (o.orthL a b) ∧ LO (o.orthL a b).1
  right : ∀ a b, a.r = b.l → Same a b (o.orthR a b) ∧ RO (o.orthR a b).2

theorem GaugeOK.factor {o : Ops (Site 𝕜)} (h : GaugeOK o) : Factor o LO RO := by
  have lk : ∀ a b, o.link a b = true ↔ a.r = b.l := fun a b => by rw [h.link]; simp
  refine ⟨?_, ?_, ?_, ?_, ?_, ?_, ?_, ?_⟩ <;> simp only [lk]
  · exact fun a b e => (h.left a b e).2
  · exact fun a b e => (h.right a b e).2
  · exact fun a b e => (h.left a b e).1.m
  · exact fun a b e => (h.right a b e).1.m
  · exact fun x a b e e' => by rw [(h.left a b e').1.l, e]
  · exact fun x a b e e' => by rw [(h.right a b e').1.l, e]
  · exact fun a b y e e' => by rw [(h.left a b e').1.r, e]
  · exact fun a b y e e' => by rw [(h.right a b e').1.r, e]

/-- The factorization in `svdBond` of a vector of norm 1: the tensors fit, one of them is orthogonal, and because of `DoNormalize` their
product has norm 1. It may truncate. -/
structure SplitOK (T : Tools 𝕜) : Prop where
  fits : ∀ n dir l d₁ d₂ r y, ‖y‖ = 1 → let p := T.split n dir l d₁ d₂ r y
    p.1.l = l ∧ p.1.d = d₁ ∧ p.1.r = p.2.l ∧ p.2.d = d₂ ∧ p.2.r = r
  left : ∀ n l d₁ d₂ r y, ‖y‖ = 1 → LO (T.split n .left l d₁ d₂ r y).1
  right : ∀ n l d₁ d₂ r y, ‖y‖ = 1 → RO (T.split n .right l d₁ d₂ r y).2
  one : ∀ n dir l d₁ d₂ r y, ‖y‖ = 1 → let p := T.split n dir l d₁ d₂ r y
    ∑ i : Pl l d₁ d₂ r, ‖bval p.1 p.2 i.1 i.2.1 i.2.2.1 i.2.2.2‖ ^ 2 = 1

/-- Nothing is truncated. -/
def Exact (T : Tools 𝕜) : Prop := ∀ n dir l d₁ d₂ r y, ‖y‖ = 1 → let p := T.split n dir l d₁ d₂ r y
  ∀ i : Pl l d₁ d₂ r, bval p.1 p.2 i.1 i.2.1 i.2.2.1 i.2.2.2 = y i

/-- What the solver needs. -/
structure SolverOK (T : Tools 𝕜) : Prop where
  diag : Solvers.DiagOK T.diag
  rnd : ∀ l d₁ d₂ r n, (∃ x : Block 𝕜 l d₁ d₂ r, x ≠ 0) → T.rnd l d₁ d₂ r n ≠ 0
  fuel : 2 ≤ T.fuel

/-- The expectation value and the norm depend on the product of two neighbouring tensors only. -/
theorem same_value {M : Mpo 𝕜} {N : Nat} {dd : Int → Nat} {t : Int → Site 𝕜} (c : Chain N dd t) (hk : M.k N = 1) {b : Int} (h1 : 1 ≤ b) (h2 : b < N)
    {p q : Site 𝕜 × Site 𝕜} (fp : Fit t b p) (fq : Fit t b q) (e : bl t b p = bl t b q) :
    sandwich M dd N (wave (put2 t b p) N) (wave (put2 t b p) N) = sandwich M dd N (wave (put2 t b q) N) (wave (put2 t b q) N) ∧
      normSq dd N (wave (put2 t b p) N) = normSq dd N (wave (put2 t b q) N) := by
  obtain ⟨n, rfl⟩ : ∃ n : Nat, b = (n : Int) + 1 := ⟨(b - 1).toNat, by omega⟩
  obtain ⟨j, hj⟩ : ∃ j, n + 2 + j = N := ⟨N - (n + 2), by omega⟩
  refine ⟨by rw [eff_eq c hk hj fp fp, eff_eq c hk hj fq fq, e], ?_⟩
  have a1 := eff_lv c (M := idM) rfl hj fp fp
  have a2 := eff_lv c (M := idM) rfl hj fq fq
  rw [lv_norm (chain_put2 c h1 h2 fp)] at a1
  rw [lv_norm (chain_put2 c h1 h2 fq), ← e, ← a1] at a2
  exact_mod_cast a2.symm

/-- `position` changes neither. -/
theorem position_value {M : Mpo 𝕜} {dd : Int → Nat} {o : Ops (Site 𝕜)} (ho : GaugeOK o) {psi : MPS (Site 𝕜)} (hs : Sound o LO RO psi) (hk : M.k psi.N = 1)
    (hc : Chain psi.N dd psi.t) {i : Int} (h1 : 1 ≤ i) (h2 : i ≤ psi.N) :
    ∃ psi', position o psi i = .ok psi' ∧ psi'.N = psi.N ∧ Chain psi.N dd psi'.t ∧
      sandwich M dd psi.N (wave psi'.t psi.N) (wave psi'.t psi.N) = sandwich M dd psi.N (wave psi.t psi.N) (wave psi.t psi.N) ∧
      normSq dd psi.N (wave psi'.t psi.N) = normSq dd psi.N (wave psi.t psi.N) := by
  have lk : ∀ a b, o.link a b = true ↔ a.r = b.l := fun a b => by rw [ho.link]; simp
  have step : ∀ (s : MPS (Site 𝕜)) (b : Int) (p : Site 𝕜 × Site 𝕜), s.N = psi.N → Chain psi.N dd s.t → 1 ≤ b → b < psi.N → Same (s.t b) (s.t (b + 1)) p →
      Chain psi.N dd (set2 s b p).t ∧
      sandwich M dd psi.N (wave (set2 s b p).t psi.N) (wave (set2 s b p).t psi.N) = sandwich M dd psi.N (wave s.t psi.N) (wave s.t psi.N) ∧
      normSq dd psi.N (wave (set2 s b p).t psi.N) = normSq dd psi.N (wave s.t psi.N) := by
    intro s b p _ c b1 b2 hp
    have fp : Fit s.t b p := ⟨hp.l, hp.d₁, hp.m, hp.d₂, hp.r⟩
    have := same_value (M := M) c hk b1 b2 fp (fit_self c b1 b2) (by
      ext i
      exact hp.val _ i.1.2 _ i.2.1.2 _ i.2.2.1.2 _ i.2.2.2.2)
    rw [put2_self] at this
    exact ⟨chain_put2 c b1 b2 fp, this⟩
  obtain ⟨s', e, _, hN, _, _, hq⟩ := positionWith_spec (sL := stepL o) (sR := stepR o) (i := i)
    (Q := fun s => s.N = psi.N ∧ Chain psi.N dd s.t ∧
      sandwich M dd psi.N (wave s.t psi.N) (wave s.t psi.N) = sandwich M dd psi.N (wave psi.t psi.N) (wave psi.t psi.N) ∧
      normSq dd psi.N (wave s.t psi.N) = normSq dd psi.N (wave psi.t psi.N)) ho.factor
    (fun s h hl => stepL_eq h hl) (fun s h hl => stepR_eq h hl)
    (fun s h hl hq => by
      have hlo := h.lo
      obtain ⟨c', e1, e2⟩ := step s (s.l + 1) (o.orthL (s.t (s.l + 1)) (s.t (s.l + 1 + 1))) hq.1 hq.2.1 (by omega) (by rw [← hq.1]; omega)
        (ho.left _ _ ((lk _ _).1 (h.linked _ (by omega) (by omega)))).1
      exact ⟨hq.1, c', e1.trans hq.2.2.1, e2.trans hq.2.2.2⟩)
    (fun s h hr hq => by
      have hhi := h.hi
      obtain ⟨c', e1, e2⟩ := step s (s.r - 2) (o.orthR (s.t (s.r - 2)) (s.t (s.r - 2 + 1))) hq.1 hq.2.1 (by omega) (by rw [← hq.1]; omega)
        (ho.right _ _ ((lk _ _).1 (h.linked _ (by omega) (by omega)))).1
      exact ⟨hq.1, c', e1.trans hq.2.2.1, e2.trans hq.2.2.2⟩)
    hs h1 h2 ⟨rfl, hc, rfl, rfl⟩
  exact ⟨s', e, hq⟩

/-! ## One step -/

/-- The function given to `davidson` is the projected operator. -/
theorem product_eq {M : Mpo 𝕜} {N : Nat} {dd : Int → Nat} {t : Int → Site 𝕜} (c : Chain N dd t) (hk0 : M.k 0 = 1) {n j : Nat} (h : n + 2 + j = N) :
    product (M.k n) (M.k (n + 1)) (M.k (n + 1 + 1)) (M.W (n + 1)) (M.W (n + 1 + 1)) (LocalMPO.leftEnv (absorb M) none t n) (LocalMPO.rightEnv (absorb M) none t N j) =
      ⇑(effL (kerAt M N t n j : Pl (t (n + 1)).l (t (n + 1)).d (t (n + 1 + 1)).d (t (n + 1 + 1)).r → _ → 𝕜)) := by
  obtain ⟨er, -⟩ := right_val M (show 2 ≤ N by omega) t j
  funext x
  ext i'
  rw [effL_apply]
  cases n with
  | zero =>
    have hk0' : M.k ((0 : Nat) : Int) = 1 := hk0
    have hf : (t (((0 : Nat) : Int) + 1)).l = 1 := c.first
    rw [show LocalMPO.leftEnv (absorb M) none t 0 = none from rfl, hk0', product_none _ _ _ _ _ hf, er]
    refine sum_congr rfl fun i _ => ?_
    unfold kerAt
    rw [hk0']
    rfl
  | succ n =>
    obtain ⟨el, -⟩ := left_val M t (n + 1)
    generalize hE : LocalMPO.leftEnv (absorb M) none t (n + 1) = E at el ⊢
    cases E with
    | none => simp [LocalMPO.leftEnv] at hE
    | some e =>
      rw [product_some, er]
      simp only [valOf, Option.elim] at el
      rw [el]
      rfl

/-- The energy that is reported and the tensors that are put in place at a bond. -/
theorem fac_spec {M : Mpo 𝕜} {N : Nat} {dd : Int → Nat} (hk0 : M.k 0 = 1) (hk : M.k N = 1) (hH : Herm M dd N) {T : Tools 𝕜} (hT : SolverOK T) (hS : SplitOK T)
    {psi : MPS (Site 𝕜)} (c : Chain N dd psi.t) (hN : 3 ≤ N) (hz : normSq dd N (wave psi.t N) ≠ 0) {b : Int} (h1 : 1 ≤ b) (h2 : b < N)
    (hl : ∀ i : Int, 1 ≤ i → i ≤ b - 1 → LO (psi.t i)) (hr : ∀ i : Int, b + 2 ≤ i → i ≤ N → RO (psi.t i)) (m : Nat) (dir : Dir) :
    ∃ p en, fac M T m psi (LocalMPO.lE (absorb M) none psi.t (b - 1)) (LocalMPO.rE (absorb M) none psi.t N (b + 2)) b dir = .ok (p, en) ∧
      Fit psi.t b p ∧ (dir = .left → LO p.1) ∧ (dir = .right → RO p.2) ∧
      en ≤ energyOf M dd N (wave psi.t N) ∧ (∃ φ, normSq dd N φ = 1 ∧ sandwich M dd N φ φ = (en : 𝕜)) ∧
      normSq dd N (wave (put2 psi.t b p) N) = 1 ∧ (Exact T → energyOf M dd N (wave (put2 psi.t b p) N) = en) := by
  obtain ⟨n, rfl⟩ : ∃ n : Nat, b = (n : Int) + 1 := ⟨(b - 1).toNat, by omega⟩
  obtain ⟨j, hj⟩ : ∃ j, n + 2 + j = N := ⟨N - (n + 2), by omega⟩
  have eL : LocalMPO.lE (absorb M) none psi.t ((n : Int) + 1 - 1) = LocalMPO.leftEnv (absorb M) none psi.t n := by
    unfold LocalMPO.lE; congr 1; omega
  have eR : LocalMPO.rE (absorb M) none psi.t N ((n : Int) + 1 + 2) = LocalMPO.rightEnv (absorb M) none psi.t N j := by
    unfold LocalMPO.rE; congr 1; omega
  have hl' : ∀ i : Int, 1 ≤ i → i ≤ n → LO (psi.t i) := fun i i1 i2 => hl i i1 (by omega)
  have hr' : ∀ i : Int, (n : Int) + 3 ≤ i → i ≤ N → RO (psi.t i) := fun i i1 i2 => hr i (by omega) i2
  have fs := fit_self c h1 h2
  have nx := norm_eq c hj hl' hr' fs
  have ex := eff_eq c hk hj fs fs
  rw [put2_self, bl_self] at nx ex
  have hx : blk (psi.t ((n : Int) + 1)) (psi.t ((n : Int) + 1 + 1)) ≠ 0 := by
    intro h0
    rw [h0, norm_zero] at nx
    exact hz (by rw [nx]; ring)
  obtain ⟨en, y, hd, hy, hey, hle, -⟩ := Solvers.C69_ground (eff_symm c hk hH hj) hT.diag (fun k => hT.rnd _ _ _ _ k ⟨_, hx⟩) hT.fuel (T.opts m)
    ((psi.t ((n : Int) + 1)).l * (psi.t ((n : Int) + 1 + 1)).r * (psi.t ((n : Int) + 1)).d * (psi.t ((n : Int) + 1 + 1)).d) T.junk hx
  obtain ⟨p1, p2, p3, p4, p5⟩ := hS.fits m dir _ _ _ _ y hy
  have fp : Fit psi.t ((n : Int) + 1) (T.split m dir _ _ _ _ y) := ⟨p1, p2, p3, p4, p5⟩
  refine ⟨T.split m dir _ _ _ _ y, en, ?_, fp, ?_, ?_, ?_, ?_, ?_, ?_⟩
  · unfold fac
    rw [if_neg, eL, eR]
    · dsimp only
      rw [show (n : Int) + 1 - 1 = n by ring, product_eq c hk0 hj, hd]
      rfl
    · rw [eL, eR]
      rintro ⟨a1, a2⟩
      cases n with
      | zero => cases j with
        | zero => omega
        | succ j => simp [LocalMPO.rightEnv] at a2
      | succ n => simp [LocalMPO.leftEnv] at a1
  · rintro rfl; exact hS.left m _ _ _ _ y hy
  · rintro rfl; exact hS.right m _ _ _ _ y hy
  · unfold energyOf
    rw [ex, nx]
    exact hle
  · refine ⟨wave (put2 psi.t ((n : Int) + 1) (trivL y)) N, ?_, ?_⟩
    · rw [norm_eq c hj hl' hr' ⟨rfl, rfl, rfl, rfl, rfl⟩, show bl psi.t ((n : Int) + 1) (trivL y) = y by ext i; exact bval_trivL y i, hy, one_pow]
    · rw [eff_eq c hk hj ⟨rfl, rfl, rfl, rfl, rfl⟩ ⟨rfl, rfl, rfl, rfl, rfl⟩,
        show bl psi.t ((n : Int) + 1) (trivL y) = y by ext i; exact bval_trivL y i, hey]
  · rw [norm_eq c hj hl' hr' fp, EuclideanSpace.norm_sq_eq]
    exact hS.one m dir _ _ _ _ y hy
  · intro hE
    have eb : bl psi.t ((n : Int) + 1) (T.split m dir _ _ _ _ y) = y := by ext i; exact hE m dir _ _ _ _ y hy i
    unfold energyOf
    rw [norm_eq c hj hl' hr' fp, eff_eq c hk hj fp fp, eb, hy, hey, RCLike.ofReal_re]
    simp

/-! ## The whole calculation -/

/-- What holds of the state and of the log during a calculation, `e₀` being the energy of the initial state. -/
structure Inv (M : Mpo 𝕜) (N : Nat) (dd : Int → Nat) (ex : Prop) (e₀ : ℝ) (psi : MPS (Site 𝕜)) (log : List (Dmrg.Entry (Site 𝕜) (EnvT 𝕜) ℝ)) : Prop where
  size : psi.N = N
  chain : Chain N dd psi.t
  nz : normSq dd N (wave psi.t N) ≠ 0
  one : log ≠ [] → normSq dd N (wave psi.t N) = 1
  up : ∀ e ∈ log, e.en ≤ energyOf M dd N (wave e.t N)
  real : ∀ e ∈ log, ∃ φ, normSq dd N φ = 1 ∧ sandwich M dd N φ φ = (e.en : 𝕜)
  first : ∀ e, log.head? = some e → energyOf M dd N (wave e.t N) = e₀
  start : log = [] → energyOf M dd N (wave psi.t N) = e₀
  last : ex → ∀ e, log.getLast? = some e → energyOf M dd N (wave psi.t N) = e.en
  mono : ex → log.IsChain fun a b => b.en ≤ a.en

theorem step_good {M : Mpo 𝕜} {N : Nat} {dd : Int → Nat} (hk0 : M.k 0 = 1) (hk : M.k N = 1) (hH : Herm M dd N) {T : Tools 𝕜} (hT : SolverOK T) (hS : SplitOK T)
    {o : Ops (Site 𝕜)} (ho : GaugeOK o) (hN : 3 ≤ N) (e₀ : ℝ) (write : Nat → Bool) :
    Dmrg.GoodQ o LO RO (env M T write) (Inv M N dd (Exact T) e₀) := by
  intro psi log b ha dir hs hq h1 h2 hla hra
  have hNN := hq.size
  have lk : ∀ a b, o.link a b = true ↔ a.r = b.l := fun a b => by rw [ho.link]; simp
  obtain ⟨p, en, e, fp, pL, pR, hle, hreal, hone, hex⟩ := fac_spec hk0 hk hH hT hS hq.chain hN hq.nz h1 (by omega)
    (fun i i1 i2 => hs.left i i1 (by omega)) (fun i i1 i2 => hs.right i (by omega) (by omega)) log.length dir
  have hok : (Call.svdBond b p dir).Ok o LO RO psi := by
    refine ⟨h1, h2, (lk _ _).2 fp.m, fun hb => (lk _ _).2 ?_, fun hb => (lk _ _).2 ?_, pL, pR⟩
    · rw [fp.l, hq.chain.link (b - 1) (by omega) (by omega), show b - 1 + 1 = b by ring]
    · rw [fp.r, hq.chain.link (b + 1) (by omega) (by omega), show b + 1 + 1 = b + 2 by ring]
  have e' : (env M T write).fac log.length psi (LocalMPO.lE (env M T write).absorb none psi.t (b - 1)) (LocalMPO.rE (env M T write).absorb none psi.t psi.N (b + 2)) b dir =
      .ok (p, en) := by rw [hNN]; exact e
  refine ⟨p, en, e', hok, fun psi' e2 => ?_⟩
  obtain ⟨-, n', t', -, -⟩ := svdBond_sound hs hok e2
  have et : psi'.t = put2 psi.t b p := t'
  refine ⟨n'.trans hNN, ?_, ?_, ?_, ?_, ?_, ?_, ?_, ?_, ?_⟩
  · rw [et]; exact chain_put2 hq.chain h1 (by omega) fp
  · rw [et, hone]; exact one_ne_zero
  · intro _; rw [et, hone]
  · intro x hx
    rcases List.mem_append.1 hx with hx | hx
    · exact hq.up x hx
    · rw [List.mem_singleton] at hx; subst hx; exact hle
  · intro x hx
    rcases List.mem_append.1 hx with hx | hx
    · exact hq.real x hx
    · rw [List.mem_singleton] at hx; subst hx; exact hreal
  · intro x hx
    cases log with
    | nil => simp only [List.nil_append, List.head?_cons, Option.some.injEq] at hx; subst hx; exact hq.start rfl
    | cons y log => exact hq.first x hx
  · intro h; exact absurd h (by simp)
  · intro hE x hx
    rw [List.getLast?_append, List.getLast?_singleton, Option.some_or, Option.some.injEq] at hx
    subst hx
    rw [et]
    exact hex hE
  · intro hE
    refine List.isChain_append.2 ⟨hq.mono hE, List.isChain_singleton _, fun x hx y hy => ?_⟩
    simp only [List.head?_cons, Option.mem_def, Option.some.injEq] at hy
    subst hy
    rw [← hq.last hE x hx]
    exact hle

/-- The norm of the state is that of its first tensor when the others are right orthogonal. -/
theorem frob_eq {N : Nat} {dd : Int → Nat} {t : Int → Site 𝕜} (c : Chain N dd t) (hN : 2 ≤ N) (hr : ∀ i : Int, 2 ≤ i → i ≤ N → RO (t i)) :
    frob (t 1) = normSq dd N (wave t N) := by
  have e := pairing idM c c rfl (n := 1) (j := N - 1) le_rfl (by omega)
  rw [lv_norm c, show (idM : Mpo 𝕜).k ((1 : Nat) : Int) = 1 from rfl, sum_tri] at e
  have g := rv_gauge c (j := N - 1) (by omega) fun i i1 i2 => hr i (by omega) i2
  rw [show (N : Int) - ((N - 1 : Nat) : Int) = 1 by omega] at g
  have e1 : ((∑ c ∈ range (t 1).r, ∑ s ∈ range (t 1).d, ‖(t 1).A 0 s c‖ ^ 2 : ℝ) : 𝕜) = ((normSq dd N (wave t N) : ℝ) : 𝕜) := by
    rw [← e]
    push_cast
    refine sum_congr rfl fun k hk => ?_
    have hk' : k < (t 1).r := by simpa using hk
    simp only [range_one, sum_singleton]
    refine Eq.symm ((sum_eq_single k (fun k2 h2 hne => ?_) fun hn => absurd hk hn).trans ?_)
    · rw [g k hk' 0 k2 (by simpa using h2), if_neg (Ne.symm hne), mul_zero]
    · rw [g k hk' 0 k hk', if_pos rfl, mul_one, lv, absL_eq, show (idM : Mpo 𝕜).k ((0 : Nat) : Int) = 1 from rfl, sum_tri]
      rw [show (((0 : Nat) : Int) + 1) = 1 from rfl, c.first]
      simp only [range_one, sum_singleton, lv, one_mul]
      rw [tr_id _ rfl]
      refine sum_congr rfl fun s _ => ?_
      rw [RCLike.conj_mul]
  have e2 : (∑ c ∈ range (t 1).r, ∑ s ∈ range (t 1).d, ‖(t 1).A 0 s c‖ ^ 2 : ℝ) = normSq dd N (wave t N) := by exact_mod_cast e1
  rw [← e2]
  unfold frob
  rw [c.first]
  simp only [range_one, sum_singleton]
  rw [sum_comm]

theorem normalize_one {A : Site 𝕜} (h : frob A = 1) : normalizeSite A = A := by
  unfold normalizeSite
  simp [h]

/-- The calculation from beginning to end. -/
theorem run_spec {M : Mpo 𝕜} {dd : Int → Nat} {T : Tools 𝕜} {o : Ops (Site 𝕜)} (hT : SolverOK T) (hS : SplitOK T) (ho : GaugeOK o) {psi : MPS (Site 𝕜)}
    (hk0 : M.k 0 = 1) (hk : M.k psi.N = 1) (hH : Herm M dd psi.N) (hN : 3 ≤ psi.N) (hr : Reach o LO RO psi) (hc : Chain psi.N dd psi.t)
    (hz : normSq dd psi.N (wave psi.t psi.N) ≠ 0) (write : Nat → Bool) {n : Nat} (hn : 1 ≤ n) {fuel : Nat} (hf : 2 * psi.N ≤ fuel) :
    ∃ j, dmrg o M T write fuel n psi = some (.ok j) ∧ j.log ≠ [] ∧ (j.log.map fun e => (e.b, e.ha)) = (List.replicate n (Dmrg.order psi.N)).flatten ∧
      Inv M psi.N dd (Exact T) (energyOf M dd psi.N (wave psi.t psi.N)) j.psi j.log := by
  obtain ⟨psi1, e1, n1, c1, s1, z1⟩ := position_value (M := M) ho (C40_limits ho.factor hr) hk hc (i := 1) le_rfl (by omega)
  have hq : Inv M psi.N dd (Exact T) (energyOf M dd psi.N (wave psi.t psi.N)) psi1 [] :=
    ⟨n1, c1, by rw [z1]; exact hz, by simp, by simp, by simp, by simp, fun _ => by unfold energyOf; rw [s1, z1], by simp, fun _ => List.isChain_nil⟩
  obtain ⟨j2, e, s2, q2, n2, l2, r2, hm, hR⟩ := Dmrg.dmrg_keeps ho.factor (step_good hk0 hk hH hT hS ho hN _ write) hr (by omega) e1 hq n hf
  have hne : j2.log ≠ [] := by
    intro h
    rw [h] at hm
    obtain ⟨k, rfl⟩ : ∃ k, n = k + 1 := ⟨n - 1, by omega⟩
    have := congrArg List.length hm
    simp [List.replicate_succ, Dmrg.order] at this
    omega
  have hone : frob (j2.psi.t 1) = 1 := by
    rw [frob_eq q2.chain (by omega) fun i i1 i2 => s2.right i (by omega) (by omega), q2.one hne]
  have ht : Function.update j2.psi.t 1 ((env M T write).norm (j2.psi.t 1)) = j2.psi.t := by
    rw [show (env M T write).norm (j2.psi.t 1) = j2.psi.t 1 from normalize_one hone, Function.update_eq_self]
  rw [ht] at e
  exact ⟨_, e, hne, hm, q2⟩

/-- **C73** (variational). A calculation with three or more sites ends without error, whatever the truncation. Each bond of each sweep
is treated in turn; the energy found there is the expectation value of the operator in some state of norm 1, so it is never below the
lowest eigenvalue, and it is not above the energy of the state at that time, the first one being the initial state (in any gauge). The
final state has norm 1. -/
theorem C73_variational_partial {M : Mpo 𝕜} {dd : Int → Nat} {T : Tools 𝕜} {o : Ops (Site 𝕜)} (hT : SolverOK T) (hS : SplitOK T) (ho : GaugeOK o)
    {psi : MPS (Site 𝕜)} (hk0 : M.k 0 = 1) (hk : M.k psi.N = 1) (hH : Herm M dd psi.N) (hN : 3 ≤ psi.N) (hr : Reach o LO RO psi)
    (hc : Chain psi.N dd psi.t) (hz : normSq dd psi.N (wave psi.t psi.N) ≠ 0) (write : Nat → Bool) {n : Nat} (hn : 1 ≤ n) {fuel : Nat}
    (hf : 2 * psi.N ≤ fuel) :
    ∃ j, dmrg o M T write fuel n psi = some (.ok j) ∧
      (j.log.map fun e => (e.b, e.ha)) = (List.replicate n (Dmrg.order psi.N)).flatten ∧
      (∀ e ∈ j.log, (∃ φ, normSq dd psi.N φ = 1 ∧ sandwich M dd psi.N φ φ = (e.en : 𝕜)) ∧
        (∀ g : ℝ, (∀ φ, g * normSq dd psi.N φ ≤ RCLike.re (sandwich M dd psi.N φ φ)) → g ≤ e.en) ∧
        e.en ≤ energyOf M dd psi.N (wave e.t psi.N)) ∧
      (∀ e, j.log.head? = some e → e.en ≤ energyOf M dd psi.N (wave psi.t psi.N)) ∧
      j.psi.N = psi.N ∧ Chain psi.N dd j.psi.t ∧ normSq dd psi.N (wave j.psi.t psi.N) = 1 := by
  obtain ⟨j, e, hne, hm, q⟩ := run_spec hT hS ho hk0 hk hH hN hr hc hz write hn hf
  refine ⟨j, e, hm, fun x hx => ⟨q.real x hx, fun g hg => ?_, q.up x hx⟩, fun x hx => ?_, q.size, q.chain, q.one hne⟩
  · obtain ⟨φ, h1, h2⟩ := q.real x hx
    have := hg φ
    rwa [h1, h2, mul_one, RCLike.ofReal_re] at this
  · rw [← q.first x hx]
    exact q.up x (List.mem_of_mem_head? hx)

/-- **C73** (monotone). When nothing is truncated the energies found at the bonds never increase, none is above the energy of the initial
state, and the last one, which is returned, is the energy of the final state. -/
theorem C73_monotone_partial {M : Mpo 𝕜} {dd : Int → Nat} {T : Tools 𝕜} {o : Ops (Site 𝕜)} (hT : SolverOK T) (hS : SplitOK T) (hE : Exact T)
    (ho : GaugeOK o) {psi : MPS (Site 𝕜)} (hk0 : M.k 0 = 1) (hk : M.k psi.N = 1) (hH : Herm M dd psi.N) (hN : 3 ≤ psi.N) (hr : Reach o LO RO psi)
    (hc : Chain psi.N dd psi.t) (hz : normSq dd psi.N (wave psi.t psi.N) ≠ 0) (write : Nat → Bool) {n : Nat} (hn : 1 ≤ n) {fuel : Nat}
    (hf : 2 * psi.N ≤ fuel) :
    ∃ j, dmrg o M T write fuel n psi = some (.ok j) ∧ (j.log.map (·.en)).Pairwise (fun a b => b ≤ a) ∧
      (∀ e ∈ j.log, e.en ≤ energyOf M dd psi.N (wave psi.t psi.N)) ∧
      ∃ e, j.log.getLast? = some e ∧ energyOf M dd psi.N (wave j.psi.t psi.N) = e.en := by
  obtain ⟨j, e, hne, hm, q⟩ := run_spec hT hS ho hk0 hk hH hN hr hc hz write hn hf
  have hp : j.log.Pairwise fun a b => b.en ≤ a.en := by
    haveI : IsTrans (Dmrg.Entry (Site 𝕜) (EnvT 𝕜) ℝ) fun a b => b.en ≤ a.en := ⟨fun _ _ _ h1 h2 => h2.trans h1⟩
    exact List.isChain_iff_pairwise.1 (q.mono hE)
  refine ⟨j, e, List.pairwise_map.2 hp, ?_, ?_⟩
  · intro x hx
    cases hl : j.log with
    | nil => exact absurd hl hne
    | cons y l =>
      have hy := q.first y (by rw [hl]; rfl)
      have hyu := q.up y (by rw [hl]; exact List.mem_cons_self)
      rw [hy] at hyu
      rw [hl] at hx hp
      rcases List.mem_cons.1 hx with rfl | hx
      · exact hyu
      · exact ((List.pairwise_cons.1 hp).1 x hx).trans hyu
  · cases hl : j.log.getLast? with
    | none => exact absurd (List.getLast?_eq_none_iff.1 hl) hne
    | some x => exact ⟨x, rfl, q.last hE x hl⟩

/-- With two sites there is no environment on either side, which `LocalOp` takes as not being set: every calculation stops with an error. -/
theorem C73_two_sites_counterexample (M : Mpo 𝕜) (T : Tools 𝕜) {o : Ops (Site 𝕜)} (ho : GaugeOK o) {psi : MPS (Site 𝕜)} (hN : psi.N = 2)
    (hr : Reach o LO RO psi) (write : Nat → Bool) {n : Nat} (hn : 1 ≤ n) {fuel : Nat} (hf : 1 ≤ fuel) :
    dmrg o M T write fuel n psi = some .throw := by
  obtain ⟨fuel, rfl⟩ : ∃ k, fuel = k + 1 := ⟨fuel - 1, by omega⟩
  obtain ⟨n, rfl⟩ : ∃ k, n = k + 1 := ⟨n - 1, by omega⟩
  have main : ∀ j : Dmrg.Job (Site 𝕜) (EnvT 𝕜) ℝ, j.psi.N = 2 → Dmrg.Fits (absorb M) j.psi j.PH none →
      Dmrg.bonds (env M T write) (fuel + 1) 1 1 j = some .throw := by
    intro j h2 hfit
    obtain ⟨PH', e, -, g1, g2⟩ := Dmrg.fits_position hfit (b := 1) le_rfl (by rw [h2]; decide) (by simp)
    have g1' : LocalMPO.getL PH' = none := by rw [g1]; rfl
    have g2' : LocalMPO.getR PH' = none := by rw [g2, h2]; rfl
    have hb : Dmrg.body (env M T write) j 1 1 = .throw := by
      unfold Dmrg.body
      rw [show LocalMPO.position (env M T write).absorb 1 j.psi.t j.PH = .ok PH' from e]
      simp only [Res.bind_ok]
      rw [g1', g2', show (env M T write).fac = fac M T from rfl]
      unfold fac
      rw [if_pos ⟨rfl, rfl⟩]
      rfl
    unfold Dmrg.bonds
    rw [if_pos (by decide), hb]
  have h0 := C40_limits ho.factor hr
  obtain ⟨psi1, e1, s1, n1, l1, r1, _⟩ := positionWith_spec (sL := stepL o) (sR := stepR o) (Q := fun _ => True) ho.factor
    (fun s h hl => stepL_eq h hl) (fun s h hl => stepR_eq h hl) (fun _ _ _ _ => trivial) (fun _ _ _ _ => trivial) h0
    (i := 1) le_rfl (by omega) trivial
  have hfit : Dmrg.Fits (absorb M) psi1 (LocalMPO.make psi.N none none 2 true) none :=
    ⟨Or.inl LocalMPO.Mem.make, n1.symm, rfl, rfl, by simp, fun _ => ⟨rfl, by simp [LocalMPO.make, n1]⟩⟩
  have hs : Dmrg.sweep (env M T write) (fuel + 1) 1 ⟨psi1, LocalMPO.make psi.N none none 2 true, []⟩ = some .throw := by
    unfold Dmrg.sweep
    by_cases hc : write 1 = true
    · have e : LocalMPO.doWrite (LocalMPO.make (E := EnvT 𝕜) psi.N none none 2 true) true =
          .ok { LocalMPO.make psi.N none none 2 true with write := true, file := fun _ => none } := by
        unfold LocalMPO.doWrite
        rw [if_neg (by simp [LocalMPO.make]), if_pos ⟨rfl, rfl⟩]
      obtain ⟨d, l, r, n', c⟩ := LocalMPO.Mem.disk (LocalMPO.Mem.make (absorb := absorb M) (psi := psi1.t)) e
      rw [if_pos ⟨rfl, hc⟩]
      dsimp only
      rw [e]
      dsimp only
      exact main _ (n1.trans hN) ⟨Or.inr d, n'.trans hfit.N, c.trans hfit.nc, d.op, by simp, fun h => ⟨l.trans (hfit.free h).1, r.trans (hfit.free h).2⟩⟩
    · rw [if_neg (by intro h; exact hc h.2)]
      exact main _ (n1.trans hN) hfit
  unfold dmrg Dmrg.dmrg
  rw [show position o psi 1 = .ok psi1 from e1]
  dsimp only
  unfold Dmrg.sweeps
  rw [hs]

/-! ## The hypotheses can be met -/

/-- Exact factorizations, for `position`. -/
def exOps : Ops (Site 𝕜) := ⟨fun a b => decide (a.r = b.l), fun a b => trivL (blk a b), fun a b => trivR (blk a b)⟩

theorem exOps_ok : GaugeOK (exOps (𝕜 := 𝕜)) := by
  refine ⟨fun _ _ => rfl, fun a b _ => ⟨⟨rfl, rfl, rfl, rfl, rfl, ?_⟩, trivL_lo _⟩, fun a b _ => ⟨⟨rfl, rfl, rfl, rfl, rfl, ?_⟩, trivR_ro _⟩⟩
  · intro i hi s₁ h₁ s₂ h₂ k hk
    exact bval_trivL (blk a b) (⟨i, hi⟩, ⟨s₁, h₁⟩, ⟨s₂, h₂⟩, ⟨k, hk⟩)
  · intro i hi s₁ h₁ s₂ h₂ k hk
    exact bval_trivR (blk a b) (⟨i, hi⟩, ⟨s₁, h₁⟩, ⟨s₂, h₂⟩, ⟨k, hk⟩)

/-- Tools which do not truncate. -/
theorem exists_tools (opts : Nat → Solvers.DOpts) : ∃ T : Tools 𝕜, T.opts = opts ∧ SolverOK T ∧ SplitOK T ∧ Exact T := by
  classical
  obtain ⟨diag, hd⟩ := Solvers.exists_diag (𝕜 := 𝕜)
  let T : Tools 𝕜 := {
    diag := diag
    rnd := fun l d₁ d₂ r _ => if h : ∃ x : Block 𝕜 l d₁ d₂ r, x ≠ 0 then h.choose else 0
    fuel := 2
    opts := opts
    junk := fun _ _ => 0
    split := fun _ dir _ _ _ _ x => match dir with
      | .left => trivL x
      | .right => trivR x }
  have hE : Exact T := by
    intro n dir l d₁ d₂ r y _
    cases dir
    · exact bval_trivL y
    · exact bval_trivR y
  refine ⟨T, rfl, ⟨hd, fun l d₁ d₂ r n h => ?_, le_rfl⟩, ⟨?_, fun n l d₁ d₂ r y _ => trivL_lo y, fun n l d₁ d₂ r y _ => trivR_ro y, ?_⟩, hE⟩
  · simp only [T]
    rw [dif_pos h]
    exact h.choose_spec
  · intro n dir l d₁ d₂ r y _
    cases dir <;> exact ⟨rfl, rfl, rfl, rfl, rfl⟩
  · intro n dir l d₁ d₂ r y hy
    have := hE n dir l d₁ d₂ r y hy
    simp only at this ⊢
    simp only [this]
    rw [← EuclideanSpace.norm_sq_eq, hy, one_pow]

/-- The product of the flips of all spins. -/
def exM : Mpo 𝕜 := ⟨fun _ => 1, fun _ _ s' s _ => if s' = s then 0 else 1⟩

/-- A product state. -/
def exSite : Site 𝕜 := ⟨1, 2, 1, fun _ s _ => if s = 0 then 1 else 2⟩

theorem exM_herm (N : Nat) : Herm (exM (𝕜 := 𝕜)) (fun _ => 2) N := by
  have : ∀ (n : Nat) (σ' σ : Int → Nat) w, hop (exM (𝕜 := 𝕜)) n σ' σ w = (starRingEnd 𝕜) (hop exM n σ σ' w) := by
    intro n
    induction n with
    | zero => intros; simp [hop]
    | succ n ih =>
      intro σ' σ w
      simp only [hop]
      rw [map_sum]
      refine sum_congr rfl fun x _ => ?_
      rw [map_mul, ← ih, exM]
      by_cases h : σ' (n + 1) = σ (n + 1)
      · simp [h]
      · simp [h, Ne.symm h]
  intro σ' σ _
  exact this N σ' σ 0

theorem ex_norm : normSq (fun _ => 2) 3 (wave (fun _ => exSite (𝕜 := 𝕜)) 3) = 125 := by
  simp [normSq, sumCfg, wave, amp, exSite, sum_range_succ, Function.update]
  norm_num

/-- Three spins, started from a product state, two sweeps. -/
example : ∃ (T : Tools ℂ) (j : Dmrg.Job (Site ℂ) (EnvT ℂ) ℝ),
    dmrg exOps exM T (fun _ => false) 6 2 ⟨3, fun _ => exSite, 0, 4⟩ = some (.ok j) ∧ (j.log.map (·.b)) = [1, 2, 2, 1, 1, 2, 2, 1] ∧
      (j.log.map (·.en)).Pairwise (fun a b => b ≤ a) := by
  obtain ⟨T, -, h1, h2, h3⟩ := exists_tools (𝕜 := ℂ) fun _ => ⟨2, 1 / 10 ^ 14, 1⟩
  have hr : Reach exOps LO RO (⟨3, fun _ => exSite (𝕜 := ℂ), 0, 4⟩ : MPS (Site ℂ)) := Reach.init 3 _ (by decide) fun _ _ _ => by simp [exOps, exSite]
  have hc : Chain 3 (fun _ => 2) (fun _ => exSite (𝕜 := ℂ)) := ⟨rfl, rfl, fun _ _ _ => rfl, fun _ _ _ => rfl⟩
  have hz : normSq (fun _ => 2) 3 (wave (fun _ => exSite (𝕜 := ℂ)) 3) ≠ 0 := by rw [ex_norm]; norm_num
  obtain ⟨j, e, hm, -⟩ := C73_variational_partial (M := exM) (psi := ⟨3, fun _ => exSite (𝕜 := ℂ), 0, 4⟩) h1 h2 exOps_ok rfl rfl (exM_herm 3) (by decide) hr hc hz (fun _ => false)
    (n := 2) (by decide) (fuel := 6) (by decide)
  obtain ⟨j', e', hp, -⟩ := C73_monotone_partial (M := exM) (psi := ⟨3, fun _ => exSite (𝕜 := ℂ), 0, 4⟩) h1 h2 h3 exOps_ok rfl rfl (exM_herm 3) (by decide) hr hc hz (fun _ => false)
    (n := 2) (by decide) (fuel := 6) (by decide)
  rw [e] at e'
  obtain rfl : j = j' := by simpa using e'
  refine ⟨T, j, e, ?_, hp⟩
  have := congrArg (List.map Prod.fst) hm
  rw [List.map_map] at this
  exact this

/-- Two spins. -/
example : ∃ T : Tools ℂ, dmrg exOps exM T (fun _ => false) 6 2 ⟨2, fun _ => exSite, 0, 3⟩ = some .throw := by
  obtain ⟨T, -⟩ := exists_tools (𝕜 := ℂ) fun _ => ⟨2, 1 / 10 ^ 14, 1⟩
  exact ⟨T, C73_two_sites_counterexample exM T exOps_ok rfl (Reach.init 2 _ (by decide) fun _ _ _ => by simp [exOps, exSite]) _ (by decide) (by decide)⟩

end Verif.DmrgNum
