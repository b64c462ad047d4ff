import Verif.MPS.ApplyMPOStep

/-! # The whole sweep -/

noncomputable section

namespace Verif.ApplyMPO

open Finset Verif.Limits Verif.DmrgNum

variable {𝕜 : Type*} [RCLike 𝕜]

/-- A function of the first `m` sites. -/
def Loc {α : Type*} (m : Nat) (H : (Int → Nat) → α) : Prop := ∀ σ σ' : Int → Nat, (∀ i : Int, 1 ≤ i → i ≤ m → σ i = σ' i) → H σ = H σ'

theorem Loc.mono {α : Type*} {m m' : Nat} {H : (Int → Nat) → α} (h : Loc m H) (hm : m ≤ m') : Loc m' H :=
  fun σ σ' hσ => h σ σ' fun i h1 h2 => hσ i h1 (by omega)

theorem loc_st (M : Mpo 𝕜) (t : Int → Site 𝕜) (n : Nat) (O : Nat → Nat → Nat → Nat → 𝕜) : Loc (n + 1) (st M t n O) := by
  intro σ σ' h
  funext b
  simp only [st]
  rw [part_congr M t (σ' := σ') fun i h1 h2 => h i h1 (by push_cast; omega), h ((n : Int) + 1) (by omega) (by push_cast; omega)]

theorem loc_amp (t : Int → Site 𝕜) (n : Nat) : Loc n (amp t n) := fun _ _ h => TEvol.amp_congr fun i h1 h2 => ⟨rfl, h i h1 h2⟩

/-- The square of the norm of a function of the first `n` sites and a link. -/
def nrm (dd : Int → Nat) (n r : Nat) (H : (Int → Nat) → Nat → 𝕜) : ℝ := sumCfg dd n (fun σ => ∑ b ∈ range r, ‖H σ b‖ ^ 2) fun _ => 0

theorem nrm_nonneg (dd : Int → Nat) (n r : Nat) (H : (Int → Nat) → Nat → 𝕜) : 0 ≤ nrm dd n r H :=
  TEvol.sumCfg_nonneg (fun _ => sum_nonneg fun _ _ => by positivity) _ _

theorem nrm_congr {dd : Int → Nat} {n r : Nat} {H H' : (Int → Nat) → Nat → 𝕜} (h : ∀ σ, (∀ i : Int, 1 ≤ i → i ≤ n → σ i < dd i) → ∀ b < r, H σ b = H' σ b) :
    nrm dd n r H = nrm dd n r H' :=
  sumCfg_congr fun σ h1 _ => sum_congr rfl fun b hb => by rw [h σ h1 b (by simpa using hb)]

/-- The rows of a function of `n+1` sites. -/
def row (d r n : Nat) (H : (Int → Nat) → Nat → 𝕜) (σ : Int → Nat) : EuclideanSpace 𝕜 (Fin d × Fin r) :=
  vec d r fun s b => H (Function.update σ ((n : Int) + 1) s) b

theorem nrm_row (dd : Int → Nat) {n : Nat} (r : Nat) {H : (Int → Nat) → Nat → 𝕜} (h : Loc (n + 1) H) :
    nrm dd (n + 1) r H = sumCfg dd n (fun σ => ‖row (dd (n + 1)) r n H σ‖ ^ 2) fun _ => 0 := by
  simp only [nrm, sumCfg, row, norm_vec]
  rw [sumCfg_add]
  refine sum_congr rfl fun s _ => sumCfg_frame fun σ σ' h1 h2 => sum_congr rfl fun b _ => ?_
  rw [h σ (Function.update σ' ((n : Int) + 1) s) fun i i1 i2 => ?_]
  by_cases e : i = (n : Int) + 1
  · subst e
    rw [Function.update_self, (h2 _ (by omega)).1, Function.update_self]
  · rw [Function.update_of_ne e, (h1 i i1 (by push_cast at i2; omega)).1]

/-- Projection on the columns of `U`. -/
def prj (d r n : Nat) (U : Nat → Nat → Nat → 𝕜) (H : (Int → Nat) → Nat → 𝕜) (σ : Int → Nat) (k : Nat) : 𝕜 :=
  ∑ s ∈ range d, ∑ b ∈ range r, U s b k * H (Function.update σ ((n : Int) + 1) s) b

/-- And back. -/
def emb (m n : Nat) (U : Nat → Nat → Nat → 𝕜) (X : (Int → Nat) → Nat → 𝕜) (σ : Int → Nat) (b : Nat) : 𝕜 :=
  ∑ k ∈ range m, X σ k * (starRingEnd 𝕜) (U (σ ((n : Int) + 1)) b k)

theorem loc_emb (m n : Nat) (U : Nat → Nat → Nat → 𝕜) {X : (Int → Nat) → Nat → 𝕜} (h : Loc n X) : Loc (n + 1) (emb m n U X) := by
  intro σ σ' hσ
  funext b
  simp only [emb]
  rw [h σ σ' fun i h1 h2 => hσ i h1 (by push_cast; omega), hσ ((n : Int) + 1) (by omega) (by push_cast; omega)]

theorem prj_le (dd : Int → Nat) {n r m : Nat} {U : Nat → Nat → Nat → 𝕜} (hU : Cols (dd (n + 1)) r m U) {H : (Int → Nat) → Nat → 𝕜} (h : Loc (n + 1) H) :
    nrm dd n m (prj (dd (n + 1)) r n U H) ≤ nrm dd (n + 1) r H := by
  rw [nrm_row dd r h]
  unfold nrm
  rw [sumCfg_fin, sumCfg_fin]
  refine sum_le_sum fun i _ => ?_
  have := hU.orthonormal.sum_inner_products_le (x := row (dd (n + 1)) r n H ((cfgs dd n fun _ => 0)[i])) (s := univ)
  simp only [row, inner_col] at this
  refine le_trans (le_of_eq ?_) this
  rw [Finset.sum_range]
  rfl

/-- Pythagoras. -/
theorem emb_dist (dd : Int → Nat) {n r m : Nat} {U : Nat → Nat → Nat → 𝕜} (hU : Cols (dd (n + 1)) r m U) {H X : (Int → Nat) → Nat → 𝕜} (h : Loc (n + 1) H) (hX : Loc n X) :
    nrm dd (n + 1) r (fun σ b => H σ b - emb m n U X σ b) =
      nrm dd (n + 1) r H - nrm dd n m (prj (dd (n + 1)) r n U H) + nrm dd n m (fun σ k => prj (dd (n + 1)) r n U H σ k - X σ k) := by
  have hl : Loc (n + 1) (fun σ b => H σ b - emb m n U X σ b) := by
    intro σ σ' hσ
    funext b
    dsimp only
    rw [h σ σ' hσ, loc_emb m n U hX σ σ' hσ]
  rw [nrm_row dd r hl, nrm_row dd r h]
  unfold nrm
  simp only [sumCfg_fin]
  rw [← sum_sub_distrib, ← sum_add_distrib]
  refine sum_congr rfl fun i _ => ?_
  generalize (cfgs dd n fun _ => 0)[i] = σ
  have e := dist_comb hU.orthonormal (row (dd (n + 1)) r n H σ) fun k => X σ k
  have e1 : row (dd (n + 1)) r n (fun σ b => H σ b - emb m n U X σ b) σ =
      row (dd (n + 1)) r n H σ - ∑ k : Fin m, X σ k • vec (dd (n + 1)) r fun s b => (starRingEnd 𝕜) (U s b k) := by
    ext j
    simp only [row, vec, emb, WithLp.ofLp_sub, WithLp.ofLp_sum, WithLp.ofLp_smul, Finset.sum_apply, Pi.sub_apply, Pi.smul_apply, smul_eq_mul, Function.update_self]
    rw [hX (Function.update σ ((n : Int) + 1) j.1) σ fun i _ h2 => Function.update_of_ne (by omega) _ _, Finset.sum_range]
  rw [e1, e]
  simp only [row, inner_col]
  congr 1
  · congr 1
    rw [Finset.sum_range]
    rfl
  · rw [Finset.sum_range]
    rfl

theorem emb_norm (dd : Int → Nat) {n r m : Nat} {U : Nat → Nat → Nat → 𝕜} (hU : Cols (dd (n + 1)) r m U) {X : (Int → Nat) → Nat → 𝕜} (hX : Loc n X) :
    nrm dd (n + 1) r (emb m n U X) = nrm dd n m X := by
  have := emb_dist dd hU (H := fun _ _ => 0) (fun _ _ _ => rfl) hX
  have e1 : prj (dd (n + 1)) r n U (fun _ _ => (0 : 𝕜)) = fun _ _ => 0 := by
    funext σ k
    simp [prj]
  have e2 : ∀ n r, nrm dd n r (fun _ _ => (0 : 𝕜)) = 0 := by
    intro n r
    unfold nrm
    rw [sumCfg_fin]
    simp
  have e3 : ∀ n r (Y : (Int → Nat) → Nat → 𝕜), nrm dd n r (fun σ b => 0 - Y σ b) = nrm dd n r Y := by
    intro n r Y
    simp [nrm]
  rw [e1, e2, e3, e2] at this
  rw [this, e3]
  ring

theorem sum_divmod (l k : Nat) (g : Nat → Nat → 𝕜) : ∑ a ∈ range l, ∑ w ∈ range k, g a w = ∑ i ∈ range (l * k), g (i / k) (i % k) := by
  induction l with
  | zero => simp
  | succ l ih =>
    rw [sum_range_succ, Nat.succ_mul, sum_range_add, ← ih]
    congr 1
    refine sum_congr rfl fun x hx => ?_
    have hx : x < k := by simpa using hx
    have hk : 0 < k := by omega
    rw [Nat.mul_comm l k, Nat.mul_add_div hk, Nat.div_eq_of_lt hx, Nat.mul_add_mod, Nat.mod_eq_of_lt hx, Nat.add_zero]

/-- What is given: a state, an operator, and dimensions which are not zero. -/
structure Given (M : Mpo 𝕜) (N : Nat) (di dd : Int → Nat) (t : Int → Site 𝕜) : Prop where
  chain : Chain N di t
  first : M.k 0 = 1
  link : ∀ i : Int, 2 ≤ i → i ≤ N → 1 ≤ (t i).l ∧ 1 ≤ M.k (i - 1)
  site : ∀ i : Int, 1 ≤ i → i ≤ N → 1 ≤ dd i

/-- What is asked of the options, and of the state to compare with if there is a `MaxDim`. -/
def Bounds (o : Opts) (N : Nat) (χ : Int → Site 𝕜) : Prop := ∀ m, o.maxdim = some m → o.respect = false ∧ 1 ≤ m ∧ ∀ i : Int, 2 ≤ i → i ≤ N → ((χ i).l : Int) ≤ m

/-- The result of the sweep. -/
structure Swept (o : Opts) (M : Mpo 𝕜) (dd : Int → Nat) (t : Int → Site 𝕜) (n : Nat) (O : Nat → Nat → Nat → Nat → 𝕜) (r : Nat) (res out : Int → Site 𝕜) : Prop where
  rest : ∀ i : Int, (n : Int) + 1 < i → out i = res i
  ro : ∀ i : Int, 2 ≤ i → i ≤ (n : Int) + 1 → RO (out i)
  first : (out 1).l = 1
  last : (out ((n : Int) + 1)).r = r
  site : ∀ i : Int, 1 ≤ i → i ≤ (n : Int) + 1 → (out i).d = dd i
  link : ∀ i : Int, 1 ≤ i → i ≤ n → (out i).r = (out (i + 1)).l
  max : ∀ m, o.maxdim = some m → ∀ i : Int, 2 ≤ i → i ≤ (n : Int) + 1 → ((out i).l : Int) ≤ m
  pyth : nrm dd (n + 1) r (fun σ b => st M t n O σ b - amp out (n + 1) σ b) = nrm dd (n + 1) r (st M t n O) - nrm dd (n + 1) r (amp out (n + 1))

/-- The state to compare with, when the sites right of `n+1` are projected. -/
def cmp (χ : Int → Site 𝕜) (n : Nat) (Z : Nat → Nat → Nat → 𝕜) (σ : Int → Nat) (b : Nat) : 𝕜 :=
  ∑ k ∈ range (χ ((n : Int) + 1)).l, amp χ n σ k * Z k (σ ((n : Int) + 1)) b

theorem sweep_spec {T : Tools 𝕜} (hT : EigOK T) {o : Opts} (hc : 0 ≤ o.cutoff) {M : Mpo 𝕜} {N : Nat} {di dd : Int → Nat} {t : Int → Site 𝕜} (g : Given M N di dd t)
    {χ : Int → Site 𝕜} (hχ : Bounds o N χ) (hχl : ∀ i : Int, 1 ≤ i → i < N → (χ i).r = (χ (i + 1)).l) {B : ℝ} : ∀ (n : Nat), n + 1 ≤ N → ∀ (O : Nat → Nat → Nat → Nat → 𝕜) (r : Nat) (res : Int → Site 𝕜), 1 ≤ r →
      o.cutoff * nrm dd (n + 1) r (st M t n O) ≤ B →
      (∀ m, o.maxdim = some m → ∃ Z, nrm dd (n + 1) r (fun σ b => st M t n O σ b - cmp χ n Z σ b) ≤ B) →
      ∃ out, sweep T o M dd t N n O r res = .ok out ∧ Swept o M dd t n O r res out ∧
        nrm dd (n + 1) r (fun σ b => st M t n O σ b - amp out (n + 1) σ b) ≤ n * B := by
  intro n
  induction n with
  | zero =>
    intro hn O r res hr _ _
    refine ⟨_, rfl, ?_⟩
    have e : ∀ σ b, amp (Function.update res 1 ⟨1, dd 1, r, fun a s b => O a 0 s b⟩) (0 + 1) σ b = st M t 0 O σ b := by
      intro σ b
      simp [amp, st, part, g.chain.first, g.first]
    have e0 : nrm dd (0 + 1) r (fun σ b => st M t 0 O σ b - amp (Function.update res 1 ⟨1, dd 1, r, fun a s b => O a 0 s b⟩) (0 + 1) σ b) = 0 := by
      simp only [e, sub_self, nrm]
      rw [sumCfg_fin]
      simp
    refine ⟨⟨?_, ?_, ?_, ?_, ?_, ?_, ?_, ?_⟩, ?_⟩
    · intro i hi
      rw [Function.update_of_ne (by simp at hi; omega)]
    · intro i h1 h2
      simp at h2; omega
    · rw [Function.update_self]
    · simp
    · intro i h1 h2
      obtain rfl : i = 1 := by simp at h2; omega
      rw [Function.update_self]
    · intro i h1 h2
      simp at h2; omega
    · intro m _ i h1 h2
      simp at h2; omega
    · rw [e0]
      have : (amp (Function.update res 1 ⟨1, dd 1, r, fun a s b => O a 0 s b⟩) (0 + 1)) = st M t 0 O := by
        funext σ b; exact e σ b
      rw [this, sub_self]
    · rw [e0]
      simp
  | succ n ih =>
    intro hn O r res hr hB hZ
    let j : Int := (n : Int) + 1 + 1
    let P := Fin (cfgs dd (n + 1) fun _ => 0).length
    let cf : P → Int → Nat := fun p => (cfgs dd (n + 1) fun _ => 0)[p]
    let f : P → Nat → Nat → 𝕜 := fun p s b => st M t (n + 1) O (Function.update (cf p) j s) b
    have hj1 : 1 ≤ dd j := g.site j (by omega) (by omega)
    have hρ : ∀ s b s₁ b₁, rho (t j).l (M.k (n + 1)) (envs M dd t (n + 1)) O s b s₁ b₁ = ∑ p, f p s b * (starRingEnd 𝕜) (f p s₁ b₁) := by
      intro s b s₁ b₁
      refine (rho_eq M dd t (n + 1) O (fun _ => 0) s b s₁ b₁).trans ?_
      rw [sumCfg_fin]
      rfl
    have hloc := loc_st M t (n + 1) O
    have hnrm : ∀ H : (Int → Nat) → Nat → 𝕜, Loc (n + 1 + 1) H → nrm dd (n + 1 + 1) r H = ∑ p, ‖vec (dd j) r fun s b => H (Function.update (cf p) j s) b‖ ^ 2 := by
      intro H hH
      rw [nrm_row dd r hH, sumCfg_fin]
      rfl
    -- one step
    have step : ∃ m U, diagPosSemiDef T o.cutoff (maxAt o M t N (n + 2)) o.respect (dd j) r (rho (t j).l (M.k (n + 1)) (envs M dd t (n + 1)) O) = .ok (m, U) ∧
        1 ≤ m ∧ (∀ m', o.maxdim = some m' → (m : Int) ≤ m') ∧ Cols (dd j) r m U ∧
        nrm dd (n + 1 + 1) r (st M t (n + 1) O) ≤ nrm dd (n + 1) m (prj (dd j) r (n + 1) U (st M t (n + 1) O)) + B := by
      have hpr : ∀ m U, ∑ p, ∑ k ∈ range m, ‖∑ s ∈ range (dd j), ∑ b ∈ range r, U s b k * f p s b‖ ^ 2 =
          nrm dd (n + 1) m (prj (dd j) r (n + 1) U (st M t (n + 1) O)) := by
        intro m U
        unfold nrm
        rw [sumCfg_fin]
        rfl
      have hfn : ∑ p, ‖vec (dd j) r (f p)‖ ^ 2 = nrm dd (n + 1 + 1) r (st M t (n + 1) O) := (hnrm _ hloc).symm
      cases hm : o.maxdim with
      | some m' =>
        obtain ⟨b1, b2, b3⟩ := hχ m' hm
        obtain ⟨Z, hZ⟩ := hZ m' hm
        have hma : maxAt o M t N (n + 2) = some m' := by simp [maxAt, hm]
        obtain ⟨m, U, e, h1, h2, h3, h4, h5⟩ := diag_step hT hc hj1 hr f hρ (K := (χ j).l) (fun p k => amp χ (n + 1) (cf p) k) Z (some m') o.respect b2
          (Or.inr ⟨b3 j (by omega) (by omega), Or.inl b1⟩)
        refine ⟨m, U, by rw [hma]; exact e, h1, fun m'' h => ?_, h4, ?_⟩
        · obtain rfl : m' = m'' := by simpa using h
          exact h3
        · rw [hpr, hfn] at h5
          refine h5.trans (add_le_add_right (max_le ?_ hB) _)
          refine le_trans (le_of_eq ?_) hZ
          have hl2 : Loc (n + 1 + 1) (fun σ b => st M t (n + 1) O σ b - cmp χ (n + 1) Z σ b) := by
            intro σ σ' h
            funext b
            simp only [cmp]
            rw [hloc σ σ' h, (loc_amp χ (n + 1)).mono (Nat.le_succ _) σ σ' h, h (((n + 1 : Nat) : Int) + 1) (by omega) (by push_cast; omega)]
          rw [hnrm _ hl2]
          refine sum_congr rfl fun p _ => ?_
          congr 2
          ext i
          simp only [vec, WithLp.ofLp_sub, Pi.sub_apply, f, cmp]
          rw [loc_amp χ (n + 1) (Function.update (cf p) j i.1) (cf p) fun i h1 h2 => Function.update_of_ne (by simp only [j]; push_cast at h2; omega) _ _]
          rw [show (((n + 1 : Nat) : Int) + 1) = j from rfl, Function.update_self]
      | none =>
        obtain ⟨l1, l2⟩ := g.link j (by omega) (by omega)
        have l2' : 1 ≤ M.k ((n : Int) + 1) := by
          have := l2
          rwa [show j - 1 = (n : Int) + 1 by simp [j]] at this
        let k := M.k ((n : Int) + 1)
        let x : P → Nat → 𝕜 := fun p i => part M t (n + 1) (cf p) (i / k) (i % k)
        let z : Nat → Nat → Nat → 𝕜 := fun i s b => O (i / k) (i % k) s b
        have hy : ∀ p s b, f p s b = ∑ i ∈ range ((t j).l * k), x p i * z i s b := by
          intro p s b
          simp only [x, z]
          rw [← sum_divmod (t j).l k fun a w => part M t (n + 1) (cf p) a w * O a w s b]
          simp only [f, st]
          rw [part_congr M t (σ := Function.update (cf p) j s) (σ' := cf p) fun i h1 h2 => Function.update_of_ne (by simp only [j]; push_cast at h2; omega) _ _]
          rw [show (((n + 1 : Nat) : Int) + 1) = j from rfl, Function.update_self]
          rfl
        have hy' : ∑ p, ‖vec (dd j) r (f p) - vec (dd j) r (fun s b => ∑ i ∈ range ((t j).l * k), x p i * z i s b)‖ ^ 2 = 0 := by
          refine sum_eq_zero fun p _ => ?_
          rw [show f p = fun s b => ∑ i ∈ range ((t j).l * k), x p i * z i s b from by funext s b; exact hy p s b, sub_self]
          simp
        have hB0 : 0 ≤ B := le_trans (mul_nonneg hc (nrm_nonneg _ _ _ _)) hB
        have key : 1 ≤ (maxAt o M t N (n + 2)).getD (dd j * r : Nat) ∧ (((dd j * r : Nat) : Int) ≤ (maxAt o M t N (n + 2)).getD (dd j * r : Nat) ∨
            (((t j).l * k : Nat) : Int) ≤ (maxAt o M t N (n + 2)).getD (dd j * r : Nat)) := by
          by_cases hN : n + 2 = N
          · have hma : maxAt o M t N (n + 2) = none := by simp [maxAt, hm, hN]
            rw [hma, Option.getD_none]
            exact ⟨by exact_mod_cast Nat.mul_pos hj1 hr, Or.inl le_rfl⟩
          · have hma : maxAt o M t N (n + 2) = some (((t j).l * k : Nat) : Int) := by
              simp only [maxAt, hm, if_neg hN]
              rw [show (((n + 2 : Nat) : Int) - 1) = (n : Int) + 1 by push_cast; ring]
              rfl
            rw [hma, Option.getD_some]
            exact ⟨by exact_mod_cast Nat.mul_pos l1 l2', Or.inr le_rfl⟩
        obtain ⟨m, U, e, h1, h2, h3, h4, h5⟩ := diag_step hT hc hj1 hr f hρ x z (maxAt o M t N (n + 2)) o.respect key.1
          (key.2.imp id fun h => ⟨h, Or.inr fun p s _ b _ => hy p s b⟩)
        refine ⟨m, U, e, h1, fun m'' h => by simp at h, h4, ?_⟩
        rw [hpr, hy', hfn] at h5
        exact h5.trans (add_le_add_right (max_le hB0 hB) _)
    obtain ⟨m, U, e, hm1, hmm, hU, hstep⟩ := step
    let O' := nextO (dd j) r (t j).l (M.k (n + 1)) O U (t (n + 1)) (M.W (n + 1))
    let res' := Function.update res j ⟨m, dd j, r, fun m s b => (starRingEnd 𝕜) (U s b m)⟩
    have hst : st M t n O' = prj (dd j) r (n + 1) U (st M t (n + 1) O) := by
      funext σ k
      exact st_next M g.chain (by omega) (dd j) r O U σ k
    have hB' : o.cutoff * nrm dd (n + 1) m (st M t n O') ≤ B := by
      rw [hst]
      exact le_trans (mul_le_mul_of_nonneg_left (prj_le dd hU hloc) hc) hB
    have hZ' : ∀ m', o.maxdim = some m' → ∃ Z', nrm dd (n + 1) m (fun σ b => st M t n O' σ b - cmp χ n Z' σ b) ≤ B := by
      intro m' hm'
      obtain ⟨Z, hZ⟩ := hZ m' hm'
      refine ⟨fun c' s k => ∑ c ∈ range (χ j).l, (χ ((n : Int) + 1)).A c' s c * ∑ s' ∈ range (dd j), ∑ b ∈ range r, U s' b k * Z c s' b, ?_⟩
      have hl2 : Loc (n + 1 + 1) (fun σ b => st M t (n + 1) O σ b - cmp χ (n + 1) Z σ b) := by
        intro σ σ' h
        funext b
        simp only [cmp]
        rw [hloc σ σ' h, (loc_amp χ (n + 1)).mono (Nat.le_succ _) σ σ' h, h (((n + 1 : Nat) : Int) + 1) (by omega) (by push_cast; omega)]
      refine le_trans (le_of_eq ?_) (le_trans (prj_le dd hU hl2) hZ)
      refine congrArg (nrm dd (n + 1) m) ?_
      funext σ k
      rw [hst]
      simp only [prj, mul_sub, sum_sub_distrib]
      congr 1
      have e1 : ∀ s b, cmp χ (n + 1) Z (Function.update σ (((n + 1 : Nat) : Int) + 1) s) b = ∑ c ∈ range (χ j).l, amp χ (n + 1) σ c * Z c s b := by
        intro s b
        simp only [cmp]
        rw [loc_amp χ (n + 1) (Function.update σ (((n + 1 : Nat) : Int) + 1) s) σ fun i h1 h2 => Function.update_of_ne (by omega) _ _, Function.update_self]
        rfl
      have e2 : cmp χ n (fun c' s k => ∑ c ∈ range (χ j).l, (χ ((n : Int) + 1)).A c' s c * ∑ s' ∈ range (dd j), ∑ b ∈ range r, U s' b k * Z c s' b) σ k =
          ∑ c ∈ range (χ j).l, amp χ (n + 1) σ c * ∑ s' ∈ range (dd j), ∑ b ∈ range r, U s' b k * Z c s' b := by
        simp only [cmp, amp, sum_mul]
        rw [sum_comm]
        refine sum_congr rfl fun x _ => ?_
        rw [mul_sum]
        exact sum_congr rfl fun c _ => by rw [mul_assoc]
      rw [e2]
      refine Eq.symm (Eq.trans (sum_congr rfl fun s _ => sum_congr rfl fun b _ => by rw [e1, mul_sum]) ?_)
      refine Eq.trans (sum_congr rfl fun s _ => sum_comm) ?_
      rw [sum_comm]
      refine sum_congr rfl fun c _ => ?_
      rw [mul_sum]
      refine sum_congr rfl fun s _ => ?_
      rw [mul_sum]
      refine sum_congr rfl fun b _ => ?_
      ring
    obtain ⟨out, ho, hs, herr⟩ := ih (by omega) O' m res' hm1 hB' hZ'
    have hout : out j = ⟨m, dd j, r, fun m s b => (starRingEnd 𝕜) (U s b m)⟩ := by
      rw [hs.rest j (by simp only [j]; omega)]
      exact Function.update_self _ _ _
    have hamp : amp out (n + 1 + 1) = emb m (n + 1) U (amp out (n + 1)) := by
      funext σ b
      rw [amp]
      have : (((n + 1 : Nat) : Int) + 1) = j := rfl
      simp only [emb, this, hout]
    have hX := loc_amp out (n + 1)
    have hd : nrm dd (n + 1 + 1) r (fun σ b => st M t (n + 1) O σ b - amp out (n + 1 + 1) σ b) =
        nrm dd (n + 1 + 1) r (st M t (n + 1) O) - nrm dd (n + 1) m (st M t n O') + nrm dd (n + 1) m (fun σ k => st M t n O' σ k - amp out (n + 1) σ k) := by
      rw [hamp, hst]
      exact emb_dist dd hU hloc hX
    have hn2 : nrm dd (n + 1 + 1) r (amp out (n + 1 + 1)) = nrm dd (n + 1) m (amp out (n + 1)) := by
      rw [hamp]
      exact emb_norm dd hU hX
    refine ⟨out, ?_, ⟨?_, ?_, ?_, ?_, ?_, ?_, ?_, ?_⟩, ?_⟩
    · rw [sweep]
      change (diagPosSemiDef T o.cutoff (maxAt o M t N (n + 2)) o.respect (dd j) r (rho (t j).l (M.k (n + 1)) (envs M dd t (n + 1)) O)).bind _ = _
      rw [e]
      exact ho
    · intro i hi
      push_cast at hi
      rw [hs.rest i (by omega)]
      exact Function.update_of_ne (by simp only [j]; omega) _ _
    · intro i h1 h2
      by_cases hij : i = j
      · subst hij
        rw [hout]
        intro a' h1 a h2
        dsimp only
        rw [sum_comm]
        simp only [RCLike.conj_conj]
        refine Eq.trans (sum_congr rfl fun s _ => sum_congr rfl fun b _ => mul_comm _ _) ((hU a h2 a' h1).trans ?_)
        simp only [eq_comm]
      · exact hs.ro i h1 (by simp only [j] at hij; push_cast at h2; omega)
    · exact hs.first
    · rw [show (((n + 1 : Nat) : Int) + 1) = j from rfl, hout]
    · intro i h1 h2
      by_cases hij : i = j
      · subst hij
        rw [hout]
      · exact hs.site i h1 (by simp only [j] at hij; push_cast at h2; omega)
    · intro i h1 h2
      by_cases hij : i = (n : Int) + 1
      · subst hij
        rw [hs.last, show (n : Int) + 1 + 1 = j from rfl, hout]
      · exact hs.link i h1 (by push_cast at h2; omega)
    · intro m' hm' i h1 h2
      by_cases hij : i = j
      · subst hij
        rw [hout]
        exact hmm m' hm'
      · exact hs.max m' hm' i h1 (by simp only [j] at hij; push_cast at h2; omega)
    · rw [hd, hn2, hs.pyth]
      ring
    · rw [hd]
      rw [← hst] at hstep
      push_cast
      linarith

end Verif.ApplyMPO
