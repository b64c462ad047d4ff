import Verif.MPS.FitApply

/-! # The distance from the product, by the tensors at a bond -/

noncomputable section

namespace Verif.FitApply

open Finset Verif.Limits Verif.DmrgNum

variable {𝕜 : Type*} [RCLike 𝕜]

/-! ## Specification -/

/-- `fac * K * φ` as a wavefunction. -/
def target (M : Mpo 𝕜) (dd : Int → Nat) (N : Nat) (fac : ℝ) (φ : (Int → Nat) → 𝕜) (σ' : Int → Nat) : 𝕜 :=
  (fac : 𝕜) * sumCfg dd N (fun σ => elem M N σ' σ * φ σ) fun _ => 0

/-- The square of the distance of two wavefunctions. -/
def distSq (dd : Int → Nat) (N : Nat) (φ ψ : (Int → Nat) → 𝕜) : ℝ := normSq dd N fun σ => φ σ - ψ σ

/-- Their scalar product. -/
def dot (dd : Int → Nat) (N : Nat) (φ ψ : (Int → Nat) → 𝕜) : 𝕜 := sumCfg dd N (fun σ => (starRingEnd 𝕜) (φ σ) * ψ σ) fun _ => 0

/-! ## Sums -/

theorem sumCfg_add2 {K : Type*} [AddCommMonoid K] {dd : Int → Nat} (F G : (Int → Nat) → K) : ∀ (n : Nat) (ρ : Int → Nat),
    sumCfg dd n (fun σ => F σ + G σ) ρ = sumCfg dd n F ρ + sumCfg dd n G ρ := by
  intro n
  induction n with
  | zero => intro ρ; rfl
  | succ n ih => intro ρ; simp only [sumCfg, ih, sum_add_distrib]

theorem normSq_nonneg (dd : Int → Nat) (N : Nat) (φ : (Int → Nat) → 𝕜) : 0 ≤ normSq dd N φ := by
  have : ∀ (n : Nat) (ρ : Int → Nat), 0 ≤ sumCfg dd n (fun σ => ‖φ σ‖ ^ 2) ρ := by
    intro n
    induction n with
    | zero => intro ρ; exact sq_nonneg _
    | succ n ih => intro ρ; exact sum_nonneg fun s _ => ih _
  exact this N _

theorem distSq_eq (dd : Int → Nat) (N : Nat) (φ ψ : (Int → Nat) → 𝕜) :
    distSq dd N φ ψ = normSq dd N φ - 2 * RCLike.re (dot dd N ψ φ) + normSq dd N ψ := by
  have hre := sumCfg_map (dd := dd) (RCLike.re : 𝕜 →+ ℝ) (fun σ => (starRingEnd 𝕜) (ψ σ) * φ σ) N fun _ => 0
  unfold distSq dot normSq
  rw [hre, sub_eq_add_neg, ← neg_mul, ← sumCfg_mul, ← sumCfg_add2, ← sumCfg_add2]
  refine sumCfg_congr fun σ _ _ => ?_
  rw [norm_sub_sq (𝕜 := 𝕜), ← inner_conj_symm, RCLike.conj_re, RCLike.inner_apply, mul_comm (φ σ)]
  ring

theorem sandwich_dot (M : Mpo 𝕜) (dd : Int → Nat) (N : Nat) (fac : ℝ) (φ' φ : (Int → Nat) → 𝕜) :
    dot dd N φ' (target M dd N fac φ) = (fac : 𝕜) * sandwich M dd N φ' φ := by
  unfold dot sandwich target
  rw [← sumCfg_mul]
  refine sumCfg_congr fun σ' _ _ => ?_
  rw [← sumCfg_mul, ← sumCfg_mul, ← sumCfg_mul]
  refine sumCfg_congr fun σ _ _ => ?_
  ring

/-! ## Environments -/

theorem dag_dag (A : Site 𝕜) : dag (dag A) = A := by
  cases A
  simp [dag]

theorem addL_eq (k : Nat) (W : Nat → Nat → Nat → Nat → 𝕜) (A B : Site 𝕜) (E : EV 𝕜) : addL (lwf k W A E) B = absL k W (dag B) A E := by
  funext c' w' c
  simp [addL, lwf, absL, dag]

theorem addR_eq (k : Nat) (W : Nat → Nat → Nat → Nat → 𝕜) (A B : Site 𝕜) (E : EV 𝕜) : addR (rwf k W A E) B = absR k W (dag B) A E := by
  funext c' w' c
  simp [addR, rwf, absR, dag]

/-- What the two new tensors are made from. -/
def wfAt (M : Mpo 𝕜) (N : Nat) (fac : ℝ) (t x : Int → Site 𝕜) (n j : Nat) : Block 𝕜 (t (n + 1)).l (t (n + 1)).d (t (n + 1 + 1)).d (t (n + 1 + 1)).r :=
  wfK fac (M.k (n + 1)) (x (n + 1)).r (lwf (M.k n) (M.W (n + 1)) (x (n + 1)) (lv M t x n))
    (rwf (M.k (n + 1 + 1)) (M.W (n + 1 + 1)) (x (n + 1 + 1)) (rv M N t x j)) _ _ _ _

theorem absL_conj (k : Nat) (W : Nat → Nat → Nat → Nat → 𝕜) (B A : Site 𝕜) (E : EV 𝕜) (c' w' c : Nat) :
    absL k W B A E c' w' c = ∑ a' ∈ range B.l, ∑ s' ∈ range B.d, lwf k W A E a' s' w' c * (starRingEnd 𝕜) (B.A a' s' c') := rfl

theorem absR_conj (k : Nat) (W : Nat → Nat → Nat → Nat → 𝕜) (B A : Site 𝕜) (E : EV 𝕜) (a' w a : Nat) :
    absR k W B A E a' w a = ∑ c' ∈ range B.r, ∑ s' ∈ range B.d, rwf k W A E a s' w c' * (starRingEnd 𝕜) (B.A a' s' c') := rfl

/-- The overlap of the product with the state in which the two tensors are replaced. -/
theorem overlap {M : Mpo 𝕜} {N : Nat} {dd : Int → Nat} {t x : Int → Site 𝕜} (c : Chain N dd t) (cx : Chain N dd x) (hk : M.k N = 1) {n j : Nat}
    (h : n + 2 + j = N) {p : Site 𝕜 × Site 𝕜} (fp : Fit t (n + 1) p) (fac : ℝ) :
    (fac : 𝕜) * lv M (put2 t (n + 1) p) x N 0 0 0 = inner 𝕜 (bl t (n + 1) p) (wfAt M N fac t x n j) := by
  have cp := chain_put2 c (b := (n : Int) + 1) (by omega) (by omega) fp
  rw [← pairing M cp cx hk (n := n + 1) (j := j + 1) (by omega) (by omega)]
  have el : lv M (put2 t (n + 1) p) x n = lv M t x n := lv_congr M fun i h1 h2 => ⟨put2_ne _ _ (by omega) (by omega), rfl⟩
  have er : rv M N (put2 t (n + 1) p) x j = rv M N t x j := rv_congr M fun i h1 h2 => ⟨put2_ne _ _ (by omega) (by omega), rfl⟩
  have ej : (N : Int) - j = n + 1 + 1 := by omega
  rw [rv, ej, er, lv, el]
  push_cast
  rw [put2_fst, put2_snd, PiLp.inner_apply, sum_tri]
  simp only [absL_conj, absR_conj, RCLike.inner_apply, bl, bval, wfAt, wfK]
  generalize lwf (M.k n) (M.W (n + 1)) (x (n + 1)) (lv M t x n) = f
  generalize rwf (M.k (n + 1 + 1)) (M.W (n + 1 + 1)) (x (n + 1 + 1)) (rv M N t x j) = g
  rw [fp.l, fp.d₁, fp.d₂, fp.r, sum_pl]
  simp only [map_sum, map_mul, mul_sum, sum_mul]
  refine (pull fun _ _ => pull fun _ _ => pull fun _ _ => pull fun _ _ => pull fun _ _ => rfl).trans ((Finset.sum_range _).trans (sum_congr rfl fun a' _ => ?_))
  refine (pull fun _ _ => pull fun _ _ => pull fun _ _ => pull fun _ _ => pull fun _ _ => rfl).trans ((Finset.sum_range _).trans (sum_congr rfl fun s₁ _ => ?_))
  refine (pull fun _ _ => pull fun _ _ => pull fun _ _ => pull fun _ _ => rfl).trans ((Finset.sum_range _).trans (sum_congr rfl fun s₂ _ => ?_))
  refine (pull fun _ _ => pull fun _ _ => pull fun _ _ => rfl).trans ((Finset.sum_range _).trans (sum_congr rfl fun c' _ => ?_))
  refine sum_congr rfl fun m _ => sum_congr rfl fun w _ => sum_congr rfl fun c _ => ?_
  ring

theorem dot_put2 {M : Mpo 𝕜} {N : Nat} {dd : Int → Nat} {t x : Int → Site 𝕜} (c : Chain N dd t) (cx : Chain N dd x) (hk : M.k N = 1) {n j : Nat}
    (h : n + 2 + j = N) {p : Site 𝕜 × Site 𝕜} (fp : Fit t (n + 1) p) (fac : ℝ) :
    dot dd N (wave (put2 t (n + 1) p) N) (target M dd N fac (wave x N)) = inner 𝕜 (bl t (n + 1) p) (wfAt M N fac t x n j) := by
  rw [sandwich_dot, ← lv_sandwich M (chain_put2 c (b := (n : Int) + 1) (by omega) (by omega) fp) cx, overlap c cx hk h fp]

/-- The distance from the product is, up to a constant, the distance of the two tensors from `wfAt`. -/
theorem dist_put2 {M : Mpo 𝕜} {N : Nat} {dd : Int → Nat} {t x : Int → Site 𝕜} (c : Chain N dd t) (cx : Chain N dd x) (hk : M.k N = 1) {n j : Nat}
    (h : n + 2 + j = N) (hl : ∀ i : Int, 1 ≤ i → i ≤ n → LO (t i)) (hr : ∀ i : Int, (n : Int) + 3 ≤ i → i ≤ N → RO (t i)) {p : Site 𝕜 × Site 𝕜}
    (fp : Fit t (n + 1) p) (fac : ℝ) :
    distSq dd N (target M dd N fac (wave x N)) (wave (put2 t (n + 1) p) N) =
      ‖bl t (n + 1) p - wfAt M N fac t x n j‖ ^ 2 + (normSq dd N (target M dd N fac (wave x N)) - ‖wfAt M N fac t x n j‖ ^ 2) := by
  rw [distSq_eq, dot_put2 c cx hk h fp, norm_eq c h hl hr fp, norm_sub_sq (𝕜 := 𝕜)]
  ring

/-- The product contains what the tensors are made from. -/
theorem wfAt_le {M : Mpo 𝕜} {N : Nat} {dd : Int → Nat} {t x : Int → Site 𝕜} (c : Chain N dd t) (cx : Chain N dd x) (hk : M.k N = 1) {n j : Nat}
    (h : n + 2 + j = N) (hl : ∀ i : Int, 1 ≤ i → i ≤ n → LO (t i)) (hr : ∀ i : Int, (n : Int) + 3 ≤ i → i ≤ N → RO (t i)) (fac : ℝ) :
    ‖wfAt M N fac t x n j‖ ^ 2 ≤ normSq dd N (target M dd N fac (wave x N)) := by
  have e := dist_put2 c cx hk h hl hr (p := trivL (wfAt M N fac t x n j)) ⟨rfl, rfl, rfl, rfl, rfl⟩ fac
  rw [show bl t (n + 1) (trivL (wfAt M N fac t x n j)) = wfAt M N fac t x n j by ext i; exact bval_trivL _ i, sub_self, norm_zero] at e
  have := normSq_nonneg dd N fun σ => target M dd N fac (wave x N) σ - wave (put2 t (n + 1) (trivL (wfAt M N fac t x n j))) N σ
  unfold distSq at e
  nlinarith

/-- The distance depends on the product of the two tensors only. -/
theorem dist_same {M : Mpo 𝕜} {N : Nat} {dd : Int → Nat} {t x : Int → Site 𝕜} (c : Chain N dd t) (cx : Chain N dd x) (hk : M.k N = 1) {b : Int}
    (h1 : 1 ≤ b) (h2 : b < N) {p q : Site 𝕜 × Site 𝕜} (fp : Fit t b p) (fq : Fit t b q) (e : bl t b p = bl t b q) (fac : ℝ) :
    distSq dd N (target M dd N fac (wave x N)) (wave (put2 t b p) N) = distSq dd N (target M dd N fac (wave x N)) (wave (put2 t b q) N) := by
  have en := (same_value (M := M) c hk h1 h2 fp fq e).2
  obtain ⟨n, rfl⟩ : ∃ n : Nat, b = (n : Int) + 1 := ⟨(b - 1).toNat, by omega⟩
  obtain ⟨j, hj⟩ : ∃ j, n + 2 + j = N := ⟨N - (n + 2), by omega⟩
  rw [distSq_eq, distSq_eq, dot_put2 c cx hk hj fp, dot_put2 c cx hk hj fq, e, en]

/-! ## Conjugation -/

theorem LO_dag {A : Site 𝕜} (h : LO A) : LO (dag A) := by
  intro c' h' c hc
  have := congrArg (starRingEnd 𝕜) (h c' h' c hc)
  simp only [map_sum, map_mul] at this
  change ∑ a ∈ range A.l, ∑ s ∈ range A.d, (starRingEnd 𝕜) ((starRingEnd 𝕜) (A.A a s c')) * (starRingEnd 𝕜) (A.A a s c) = _
  rw [this]
  split <;> simp

theorem RO_dag {A : Site 𝕜} (h : RO A) : RO (dag A) := by
  intro c' h' c hc
  have := congrArg (starRingEnd 𝕜) (h c' h' c hc)
  simp only [map_sum, map_mul] at this
  change ∑ a ∈ range A.r, ∑ s ∈ range A.d, (starRingEnd 𝕜) ((starRingEnd 𝕜) (A.A c' s a)) * (starRingEnd 𝕜) (A.A c s a) = _
  rw [this]
  split <;> simp

theorem chain_dag {N : Nat} {dd : Int → Nat} {t : Int → Site 𝕜} (c : Chain N dd t) : Chain N dd fun i => dag (t i) :=
  ⟨c.first, c.last, c.site, c.link⟩

theorem put2_dag (t : Int → Site 𝕜) (b : Int) (p : Site 𝕜 × Site 𝕜) :
    (fun i => dag (put2 t b p i)) = put2 (fun i => dag (t i)) b (dag p.1, dag p.2) := by
  funext i
  by_cases h : i = b
  · subst h; rw [put2_fst, put2_fst]
  · by_cases h' : i = b + 1
    · subst h'; rw [put2_snd, put2_snd]
    · rw [put2_ne _ _ h h', put2_ne _ _ h h']

theorem bval_dag (A B : Site 𝕜) (a s₁ s₂ c : Nat) : bval (dag A) (dag B) a s₁ s₂ c = (starRingEnd 𝕜) (bval A B a s₁ s₂ c) := by
  simp [bval, dag, map_sum]

theorem same_dag {a b : Site 𝕜} {p : Site 𝕜 × Site 𝕜} (h : Same a b p) : Same (dag a) (dag b) (dag p.1, dag p.2) :=
  ⟨h.l, h.d₁, h.m, h.d₂, h.r, fun i hi s₁ h₁ s₂ h₂ k hk => by rw [bval_dag, bval_dag, h.val i hi s₁ h₁ s₂ h₂ k hk]⟩

theorem dagM_dagM (s : MPS (Site 𝕜)) : dagM (dagM s) = s := by
  cases s
  simp [dagM, dag_dag]

end Verif.FitApply
