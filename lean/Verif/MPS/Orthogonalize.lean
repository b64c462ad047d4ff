import Verif.MPS.ApplyMPOC75

/-!
# C76: orthogonalization of a whole state

`MPS::orthogonalize` (mps.cc:737-812), which truncates with density matrices from the right. States are as in `DmrgNum`; an MPO has the pair
of its site indices as site. The diagonalization is given by its specification (`ApplyMPO.EigOK`). Numbers are exact; there are no quantum
numbers.
-/

noncomputable section

namespace Verif.Orthog

open Finset Verif.Limits Verif.ApplyMPO
open Verif.DmrgNum hiding Tools idM

variable {𝕜 : Type*} [RCLike 𝕜]

/-- `E[j-1] * psi(j) * psic(j)`; the links of `psic` are primed. mps.cc:781-784 -/
def envStep (A : Site 𝕜) (E : Nat → Nat → 𝕜) : Nat → Nat → 𝕜 :=
  let f := fun a₁ s b => ∑ a ∈ range A.l, E a a₁ * A.A a s b
  fun b b₁ => ∑ a₁ ∈ range A.l, ∑ s ∈ range A.d, f a₁ s b * (starRingEnd 𝕜) (A.A a₁ s b₁)

/-- The environments; there is nothing left of site 1. mps.cc:781-784 -/
def envs (t : Int → Site 𝕜) : Nat → Nat → Nat → 𝕜
  | 0 => fun _ _ => 1
  | n + 1 => envStep (t (n + 1)) (envs t n)

/-- `E * O * dag(prime(O,rand_plev))`; at the last site `O` is `psi(N)`. mps.cc:785, 804 -/
def rho (l : Nat) (E : Nat → Nat → 𝕜) (O : Nat → Nat → Nat → 𝕜) : Nat → Nat → Nat → Nat → 𝕜 :=
  let f := fun a₁ s b => ∑ a ∈ range l, E a a₁ * O a s b
  fun s b s₁ b₁ => ∑ a₁ ∈ range l, f a₁ s b * (starRingEnd 𝕜) (O a₁ s₁ b₁)

/-- `U * psi(N) * psi(N-1)`, and `O *= U; O *= psi(j-1)`. mps.cc:791, 807-808 -/
def nextO (d r l : Nat) (O : Nat → Nat → Nat → 𝕜) (U : Nat → Nat → Nat → 𝕜) (A : Site 𝕜) : Nat → Nat → Nat → 𝕜 :=
  let g := fun a m => ∑ s ∈ range d, ∑ b ∈ range r, O a s b * U s b m
  fun a' s m => ∑ a ∈ range l, g a m * A.A a' s a

/-- The number given for `MaxDim` at site `j`. mps.cc:764-766, 796-803 -/
def maxAt (o : Opts) (t : Int → Site 𝕜) (N j : Nat) : Option Int :=
  match o.maxdim with
  | some m => some m
  | none => if j = N then none else some ((t j).l : Nat)

/-- From site `n+1` to the left; `r` is the dimension of the link on the right of that site. mps.cc:785-812 -/
def sweep (T : Tools 𝕜) (o : Opts) (t : Int → Site 𝕜) (N : Nat) : Nat → (Nat → Nat → Nat → 𝕜) → Nat → (Int → Site 𝕜) → Res (Int → Site 𝕜)
  | 0, O, r, res => .ok (Function.update res 1 ⟨1, (t 1).d, r, O⟩)
  | n + 1, O, r, res =>
    let j : Int := n + 1 + 1
    (diagPosSemiDef T o.cutoff (maxAt o t N (n + 2)) o.respect (t j).d r (rho (t j).l (envs t (n + 1)) O)).bind fun q =>
      sweep T o t N n (nextO (t j).d r (t j).l O q.2 (t (n + 1))) q.1
        (Function.update res j ⟨q.1, (t j).d, r, fun m s b => (starRingEnd 𝕜) (q.2 s b m)⟩)

/-- `psi.orthogonalize(args)`. With one site the environment `E[0]`, which does not exist, is multiplied with: an error. mps.cc:737-817 -/
def orthogonalize (T : Tools 𝕜) (o : Opts) (psi : MPS (Site 𝕜)) : Res (MPS (Site 𝕜)) :=
  if psi.N ≤ 1 then .throw
  else
    (sweep T o psi.t psi.N (psi.N - 1) (psi.t psi.N).A (psi.t psi.N).r psi.t).bind fun res => .ok ⟨psi.N, res, 0, 2⟩

/-! ## Orthogonalization is `applyMPO` with the identity -/

/-- Elements outside of the dimension of the site are given as zero; there are none in the code. -/
def Supp (t : Int → Site 𝕜) : Prop := ∀ i a s b, (t i).d ≤ s → (t i).A a s b = 0

theorem sum_delta (d s : Nat) (f : Nat → 𝕜) (h : d ≤ s → f s = 0) : ∑ x ∈ range d, f x * (if s = x then 1 else 0) = f s := by
  by_cases hs : s < d
  · rw [sum_eq_single s (fun b _ hb => by rw [if_neg (Ne.symm hb), mul_zero]) (fun h => absurd (by simpa using hs) h), if_pos rfl, mul_one]
  · rw [h (by omega)]
    refine sum_eq_zero fun x hx => ?_
    have : x < d := by simpa using hx
    rw [if_neg (by omega), mul_zero]

theorem envStep_eq (A : Site 𝕜) (E : Nat → Nat → 𝕜) :
    ApplyMPO.envStep 1 A.d (fun _ s' s _ => if s' = s then 1 else 0) A (fun a _ a₁ _ => E a a₁) = fun b _ b₁ _ => envStep A E b b₁ := by
  funext b v b₁ v₁
  simp only [ApplyMPO.envStep, envStep, sum_range_one]
  refine sum_congr rfl fun a₁ _ => sum_congr rfl fun s₁ hs => ?_
  have hs : s₁ < A.d := by simpa using hs
  congr 1
  have e : ∀ s' < A.d, ∑ s ∈ range A.d, (∑ a ∈ range A.l, E a a₁ * A.A a s b) * (if s' = s then (1 : 𝕜) else 0) = ∑ a ∈ range A.l, E a a₁ * A.A a s' b :=
    fun s' hs' => sum_delta A.d s' (fun s => ∑ a ∈ range A.l, E a a₁ * A.A a s b) fun h => by omega
  rw [sum_eq_single s₁]
  · rw [e s₁ hs, if_pos rfl, map_one, mul_one]
  · intro s' _ hne
    rw [if_neg hne, map_zero, mul_zero]
  · intro h; exact absurd (by simpa using hs) h

theorem envs_eq (t : Int → Site 𝕜) : ∀ n, ApplyMPO.envs idM (fun i => (t i).d) t n = fun a _ a₁ _ => envs t n a a₁
  | 0 => rfl
  | n + 1 => by
    rw [ApplyMPO.envs, envs_eq t n]
    exact envStep_eq (t (n + 1)) (envs t n)

theorem rho_eq (l : Nat) (E : Nat → Nat → 𝕜) (O : Nat → Nat → Nat → 𝕜) :
    ApplyMPO.rho l 1 (fun a _ a₁ _ => E a a₁) (fun a _ s b => O a s b) = rho l E O := by
  funext s b s₁ b₁
  simp only [ApplyMPO.rho, rho, sum_range_one]

theorem nextO_eq (d r l : Nat) (O : Nat → Nat → Nat → 𝕜) (U : Nat → Nat → Nat → 𝕜) {A : Site 𝕜} (h : ∀ a s b, A.d ≤ s → A.A a s b = 0) :
    ApplyMPO.nextO d r l 1 (fun a _ s b => O a s b) U A (fun _ s' s _ => if s' = s then 1 else 0) = fun a _ s b => nextO d r l O U A a s b := by
  funext a' w' s' m
  simp only [ApplyMPO.nextO, nextO, sum_range_one]
  exact sum_delta A.d s' (fun s => ∑ a ∈ range l, (∑ x ∈ range d, ∑ b ∈ range r, O a x b * U x b m) * A.A a' s a) fun hs =>
    sum_eq_zero fun a _ => by rw [h _ _ _ hs, mul_zero]

theorem maxAt_eq (o : Opts) (t : Int → Site 𝕜) (N j : Nat) : ApplyMPO.maxAt o idM t N j = maxAt o t N j := by
  unfold ApplyMPO.maxAt maxAt
  cases o.maxdim <;> simp [idM]

theorem sweep_eq (T : Tools 𝕜) (o : Opts) {t : Int → Site 𝕜} (ht : Supp t) (N : Nat) : ∀ n O r res,
    ApplyMPO.sweep T o idM (fun i => (t i).d) t N n (fun a _ s b => O a s b) r res = sweep T o t N n O r res := by
  intro n
  induction n with
  | zero => intro O r res; rfl
  | succ n ih =>
    intro O r res
    rw [ApplyMPO.sweep, sweep]
    rw [maxAt_eq, envs_eq]
    rw [show (idM (𝕜 := 𝕜)).k ((n : Int) + 1) = 1 from rfl, rho_eq]
    refine congrArg (Res.bind _) ?_
    funext q
    rw [← ih]
    congr 1
    exact nextO_eq _ _ _ O q.2 fun a s b => ht _ a s b

theorem firstO_eq {A : Site 𝕜} (h : ∀ a s b, A.d ≤ s → A.A a s b = 0) : firstO (fun _ s' s _ => if s' = s then 1 else 0) A = fun a _ s b => A.A a s b := by
  funext a w s' l
  exact sum_delta A.d s' (fun s => A.A a s l) fun hs => h _ _ _ hs

theorem orthogonalize_eq (T : Tools 𝕜) {o : Opts} (hn : o.norml = false) {psi : MPS (Site 𝕜)} (ht : Supp psi.t) :
    applyMPO T o idM (fun i => (psi.t i).d) psi = orthogonalize T o psi := by
  rw [applyMPO, orthogonalize]
  refine congrArg _ ?_
  have e : firstO (idM.W psi.N) (psi.t psi.N) = fun a _ s b => (psi.t psi.N).A a s b := firstO_eq fun a s b => ht _ a s b
  rw [e, sweep_eq T o ht]
  refine congrArg (Res.bind _) ?_
  funext res
  rw [finish, if_neg (by rw [hn]; simp)]

theorem part_id (t : Int → Site 𝕜) : ∀ {n : Nat} {σ : Int → Nat}, (∀ i : Int, 1 ≤ i → i ≤ n → σ i < (t i).d) → ∀ a w, part idM t n σ a w = amp t n σ a := by
  intro n
  induction n with
  | zero => intro σ _ a w; rfl
  | succ n ih =>
    intro σ h b v
    rw [part, amp]
    refine sum_congr rfl fun a _ => ?_
    rw [show (idM (𝕜 := 𝕜)).k n = 1 from rfl, sum_range_one, ih fun i h1 h2 => h i h1 (by push_cast; omega)]
    have h' : σ ((n : Int) + 1) < (t ((n : Int) + 1)).d := h _ (by omega) (by push_cast; omega)
    have := sum_delta (t ((n : Int) + 1)).d (σ ((n : Int) + 1)) (fun s => amp t n σ a * (t ((n : Int) + 1)).A a s b) fun h => by omega
    rw [← this]
    refine sum_congr rfl fun s _ => ?_
    simp only [idM]
    ring

theorem opWave_id {N : Nat} {dd : Int → Nat} {t : Int → Site 𝕜} (c : Chain N dd t) : TEvol.Eqv dd N (opWave idM N dd (wave t N)) (wave t N) := by
  intro σ hσ
  rw [← part_opWave idM c]
  exact part_id t (fun i h1 h2 => by rw [c.site i h1 h2]; exact hσ i h1 h2) 0 0

theorem sweep_norml (T : Tools 𝕜) (o : Opts) (b : Bool) (t : Int → Site 𝕜) (N : Nat) : ∀ n O r res,
    sweep T { o with norml := b } t N n O r res = sweep T o t N n O r res := by
  intro n
  induction n with
  | zero => intro O r res; rfl
  | succ n ih =>
    intro O r res
    rw [sweep, sweep]
    refine congrArg (Res.bind _) ?_
    funext q
    exact ih _ _ _

theorem run_eq (T : Tools 𝕜) (o : Opts) {psi : MPS (Site 𝕜)} (ht : Supp psi.t) :
    applyMPO T { o with norml := false } idM (fun i => (psi.t i).d) psi = orthogonalize T o psi := by
  rw [orthogonalize_eq T rfl ht, orthogonalize, orthogonalize, sweep_norml]

/-- What is given: a state of at least two sites, and dimensions which are not zero. -/
structure State (psi : MPS (Site 𝕜)) : Prop where
  len : 2 ≤ psi.N
  chain : Chain psi.N (fun i => (psi.t i).d) psi.t
  supp : Supp psi.t
  link : ∀ i : Int, 2 ≤ i → i ≤ psi.N → 1 ≤ (psi.t i).l
  site : ∀ i : Int, 1 ≤ i → i ≤ psi.N → 1 ≤ (psi.t i).d

theorem State.given {psi : MPS (Site 𝕜)} (h : State psi) : Given idM psi.N (fun i => (psi.t i).d) (fun i => (psi.t i).d) psi.t :=
  ⟨h.chain, rfl, fun i h1 h2 => ⟨h.link i h1 h2, le_rfl⟩, h.site⟩

/-- The gauge, the links and the sites of the result. -/
structure Done (o : Opts) (psi psi' : MPS (Site 𝕜)) : Prop where
  len : psi'.N = psi.N
  left : psi'.l = 0
  right : psi'.r = 2
  chain : Chain psi.N (fun i => (psi.t i).d) psi'.t
  ro : ∀ i : Int, 2 ≤ i → i ≤ psi.N → RO (psi'.t i)
  max : ∀ m, o.maxdim = some m → ∀ i : Int, 2 ≤ i → i ≤ psi.N → ((psi'.t i).l : Int) ≤ m

/-- The square of the distance of two wavefunctions. -/
def dist (psi : MPS (Site 𝕜)) (φ φ' : (Int → Nat) → 𝕜) : ℝ := normSq (fun i => (psi.t i).d) psi.N fun σ => φ σ - φ' σ

/-- The square of the norm of a state. -/
def norm2 (psi : MPS (Site 𝕜)) (φ : (Int → Nat) → 𝕜) : ℝ := normSq (fun i => (psi.t i).d) psi.N φ

theorem dist_id {psi : MPS (Site 𝕜)} (h : State psi) (φ : (Int → Nat) → 𝕜) :
    normSq (fun i => (psi.t i).d) psi.N (fun σ => opWave idM psi.N (fun i => (psi.t i).d) (wave psi.t psi.N) σ - φ σ) = dist psi (wave psi.t psi.N) φ :=
  TEvol.normSq_eqv fun σ hσ => by rw [opWave_id h.chain σ hσ]

theorem norm_id {psi : MPS (Site 𝕜)} (h : State psi) :
    normSq (fun i => (psi.t i).d) psi.N (opWave idM psi.N (fun i => (psi.t i).d) (wave psi.t psi.N)) = norm2 psi (wave psi.t psi.N) :=
  TEvol.normSq_eqv (opWave_id h.chain)

/-- `orthogonalize` with a `Cutoff` and no `MaxDim`. Missing: one site, which ends with an error, and rounding. mps.cc:737-817 -/
theorem C76_cutoff_partial {T : Tools 𝕜} (hT : EigOK T) {o : Opts} (hc : 0 ≤ o.cutoff) (hm : o.maxdim = none) {psi : MPS (Site 𝕜)} (h : State psi) :
    ∃ psi', orthogonalize T o psi = .ok psi' ∧ Done o psi psi' ∧
      dist psi (wave psi.t psi.N) (wave psi'.t psi.N) = norm2 psi (wave psi.t psi.N) - norm2 psi (wave psi'.t psi.N) ∧
      dist psi (wave psi.t psi.N) (wave psi'.t psi.N) ≤ (psi.N - 1 : Nat) * (o.cutoff * norm2 psi (wave psi.t psi.N)) := by
  obtain ⟨psi', h1, h2, h3, h4⟩ := C75_cutoff_partial hT (o := { o with norml := false }) hc hm rfl h.len h.given
  rw [dist_id h, norm_id h] at h3 h4
  exact ⟨psi', (run_eq T o h.supp).symm.trans h1, ⟨h2.len, h2.left, h2.right, h2.chain, h2.ro, h2.max⟩, h3, h4⟩

/-- With cutoff 0 the state is kept. -/
theorem C76_exact_partial {T : Tools 𝕜} (hT : EigOK T) {o : Opts} (hc : o.cutoff = 0) (hm : o.maxdim = none) {psi : MPS (Site 𝕜)} (h : State psi) :
    ∃ psi', orthogonalize T o psi = .ok psi' ∧ Done o psi psi' ∧ ∀ σ, TEvol.Cfg (fun i => (psi.t i).d) psi.N σ → wave psi'.t psi.N σ = wave psi.t psi.N σ := by
  obtain ⟨psi', h1, h2, h3⟩ := C75_exact_partial hT (o := { o with norml := false }) hc hm rfl h.len h.given
  exact ⟨psi', (run_eq T o h.supp).symm.trans h1, ⟨h2.len, h2.left, h2.right, h2.chain, h2.ro, h2.max⟩, fun σ hσ => (h3 σ hσ).trans (opWave_id h.chain σ hσ)⟩

/-- With a `MaxDim` and `RespectDegenerate=false`: up to the factor `N-1` no state whose links are within `MaxDim` is closer. -/
theorem C76_best_partial {T : Tools 𝕜} (hT : EigOK T) {o : Opts} (hc : 0 ≤ o.cutoff) {m : Int} (hm : o.maxdim = some m) (hm1 : 1 ≤ m) (hr : o.respect = false)
    {psi : MPS (Site 𝕜)} (h : State psi) :
    ∃ psi', orthogonalize T o psi = .ok psi' ∧ Done o psi psi' ∧
      dist psi (wave psi.t psi.N) (wave psi'.t psi.N) = norm2 psi (wave psi.t psi.N) - norm2 psi (wave psi'.t psi.N) ∧
      ∀ χ : Int → Site 𝕜, Chain psi.N (fun i => (psi.t i).d) χ → (∀ i : Int, 2 ≤ i → i ≤ psi.N → ((χ i).l : Int) ≤ m) →
        dist psi (wave psi.t psi.N) (wave psi'.t psi.N) ≤
          (psi.N - 1 : Nat) * max (dist psi (wave psi.t psi.N) (wave χ psi.N)) (o.cutoff * norm2 psi (wave psi.t psi.N)) := by
  obtain ⟨psi', h1, h2, h3, h4⟩ := C75_best_partial hT (o := { o with norml := false }) hc hm hm1 hr rfl h.len h.given
  rw [dist_id h, norm_id h] at h3
  refine ⟨psi', (run_eq T o h.supp).symm.trans h1, ⟨h2.len, h2.left, h2.right, h2.chain, h2.ro, h2.max⟩, h3, fun χ c hχ => ?_⟩
  have := h4 χ c hχ
  rw [dist_id h, dist_id h, norm_id h] at this
  exact this

/-- With one site there is always an error. -/
theorem C76_one_site_counterexample (T : Tools 𝕜) (o : Opts) {psi : MPS (Site 𝕜)} (h : psi.N = 1) : orthogonalize T o psi = .throw := by
  rw [orthogonalize, if_pos (by omega)]

/-- The state `|00…0⟩ + |11…1⟩`. -/
def pair (N : Nat) (i : Int) : Site 𝕜 :=
  if i = 1 then ⟨1, 2, 2, fun _ s c => if s = c ∧ s < 2 then 1 else 0⟩ else if i = N then ⟨2, 2, 1, fun a s _ => if a = s ∧ s < 2 then 1 else 0⟩
  else ⟨2, 2, 2, fun a s c => if a = s ∧ s = c ∧ s < 2 then 1 else 0⟩

theorem pair_state {N : Nat} (hN : 2 ≤ N) : State (⟨N, pair N, 0, N + 1⟩ : MPS (Site 𝕜)) := by
  refine ⟨hN, ⟨by simp [pair], ?_, fun _ _ _ => rfl, ?_⟩, ?_, ?_, ?_⟩
  · simp only [pair]
    rw [if_neg (by omega)]
    simp
  · intro i h1 h2
    simp only [pair] at *
    split_ifs <;> first | rfl | omega
  · intro i a s b h
    simp only [pair] at *
    split_ifs at * <;> simp_all <;> omega
  · intro i h1 h2
    simp only [pair] at *
    split_ifs <;> first | omega | simp
  · intro i h1 h2
    simp only [pair] at *
    split_ifs <;> simp

/-- With `RespectDegenerate`, the default, and a `MaxDim` which divides states of equal weight two sites end in the zero vector, though there are
states within `MaxDim` which are closer, and three with an error. -/
theorem C76_degenerate_counterexample {T : Tools 𝕜} (hT : EigOK T) (c : ℝ) (b : Bool) :
    (∃ psi', orthogonalize T ⟨c, some 1, true, b⟩ ⟨2, pair 2, 0, 3⟩ = .ok psi' ∧ (psi'.t 2).l = 0 ∧ ∀ σ, wave psi'.t 2 σ = 0) ∧
    norm2 ⟨2, pair 2, 0, 3⟩ (wave (pair (𝕜 := 𝕜) 2) 2) = 2 ∧
    (∃ χ : Int → Site 𝕜, Chain 2 (fun _ => 2) χ ∧ (∀ i, (χ i).l = 1) ∧ dist ⟨2, pair 2, 0, 3⟩ (wave (pair 2) 2) (wave χ 2) = 1) ∧
    orthogonalize T ⟨c, some 1, true, b⟩ ⟨3, pair 3, 0, 4⟩ = .throw := by
  refine ⟨?_, ?_, ?_, ?_⟩
  · obtain ⟨U, hU⟩ := diag_pair hT c (H := rho (pair (𝕜 := 𝕜) 2 2).l (envs (pair 2) 1) (pair 2 2).A) (by
      intro s hs s' hs'
      interval_cases s <;> interval_cases s' <;> simp [rho, envs, envStep, pair, sum_range_succ])
    refine ⟨⟨2, Function.update (Function.update (pair 2) 2 ⟨0, 2, 1, fun m s b => (starRingEnd 𝕜) (U s b m)⟩) 1
      ⟨1, 2, 0, nextO 2 1 (pair (𝕜 := 𝕜) 2 2).l (pair 2 2).A U (pair 2 1)⟩, 0, 2⟩, ?_, ?_, ?_⟩
    · have e : sweep T ⟨c, some 1, true, b⟩ (pair 2) 2 1 (pair 2 2).A 1 (pair 2) =
          (diagPosSemiDef T c (some 1) true 2 1 (rho (pair (𝕜 := 𝕜) 2 2).l (envs (pair 2) 1) (pair 2 2).A)).bind fun q =>
            .ok (Function.update (Function.update (pair 2) 2 ⟨q.1, 2, 1, fun m s b => (starRingEnd 𝕜) (q.2 s b m)⟩) 1
              ⟨1, 2, q.1, nextO 2 1 (pair (𝕜 := 𝕜) 2 2).l (pair 2 2).A q.2 (pair 2 1)⟩) := rfl
      rw [hU, Res.bind_ok] at e
      rw [orthogonalize, if_neg (by simp)]
      have hr : (pair (𝕜 := 𝕜) 2 ((2 : Nat) : Int)).r = 1 := by simp [pair]
      dsimp only
      rw [hr]
      refine Eq.trans (congrArg (fun x => Res.bind x _) e) ?_
      rw [Res.bind_ok]
    · dsimp only
      rw [Function.update_of_ne (by decide), Function.update_self]
    · intro σ
      simp [wave, amp]
  · simp [norm2, normSq, sumCfg, wave, amp, pair, sum_range_succ, Function.update]
    norm_num
  · refine ⟨fun _ => ⟨1, 2, 1, fun _ s _ => if s = 0 then 1 else 0⟩, ⟨rfl, rfl, fun _ _ _ => rfl, fun _ _ _ => rfl⟩, fun _ => rfl, ?_⟩
    simp [dist, normSq, sumCfg, wave, amp, pair, sum_range_succ, Function.update]
  · obtain ⟨U, hU⟩ := diag_pair hT c (H := rho (pair (𝕜 := 𝕜) 3 3).l (envs (pair 3) 2) (pair 3 3).A) (by
      intro s hs s' hs'
      interval_cases s <;> interval_cases s' <;> simp [rho, envs, envStep, pair, sum_range_succ])
    have e : sweep T ⟨c, some 1, true, b⟩ (pair 3) 3 2 (pair 3 3).A 1 (pair 3) =
        (diagPosSemiDef T c (some 1) true 2 1 (rho (pair (𝕜 := 𝕜) 3 3).l (envs (pair 3) 2) (pair 3 3).A)).bind fun q =>
          sweep T ⟨c, some 1, true, b⟩ (pair 3) 3 1 (nextO 2 1 (pair (𝕜 := 𝕜) 3 3).l (pair 3 3).A q.2 (pair 3 2)) q.1
            (Function.update (pair 3) 3 ⟨q.1, 2, 1, fun m s b => (starRingEnd 𝕜) (q.2 s b m)⟩) := rfl
    rw [hU, Res.bind_ok] at e
    rw [orthogonalize, if_neg (by simp)]
    have hr : (pair (𝕜 := 𝕜) 3 ((3 : Nat) : Int)).r = 1 := by simp [pair]
    dsimp only
    rw [hr]
    refine Eq.trans (congrArg (fun x => Res.bind x _) e) ?_
    rw [sweep, diagPosSemiDef, if_pos (by simp)]
    rfl

/-! ## Examples -/

example : ∃ (T : Tools ℂ) (psi' : MPS (Site ℂ)), orthogonalize T ⟨0, none, true, false⟩ ⟨5, pair 5, 0, 6⟩ = .ok psi' ∧
    ∀ σ, TEvol.Cfg (fun i => (pair (𝕜 := ℂ) 5 i).d) 5 σ → wave psi'.t 5 σ = wave (pair 5) 5 σ := by
  obtain ⟨T, hT⟩ := ApplyMPO.exists_tools (𝕜 := ℂ)
  obtain ⟨psi', h1, _, h2⟩ := C76_exact_partial hT (o := ⟨0, none, true, false⟩) rfl rfl (pair_state (N := 5) (by decide))
  exact ⟨T, psi', h1, h2⟩

example : ∃ (T : Tools ℂ) (psi' : MPS (Site ℂ)), orthogonalize T ⟨1 / 10 ^ 13, some 1, false, false⟩ ⟨5, pair 5, 0, 6⟩ = .ok psi' := by
  obtain ⟨T, hT⟩ := ApplyMPO.exists_tools (𝕜 := ℂ)
  obtain ⟨psi', h1, _⟩ := C76_best_partial hT (o := ⟨1 / 10 ^ 13, some 1, false, false⟩) (by positivity) rfl (by decide) rfl (pair_state (N := 5) (by decide))
  exact ⟨T, psi', h1⟩

end Verif.Orthog
