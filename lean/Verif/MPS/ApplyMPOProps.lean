import Verif.MPS.ApplyMPOEig

/-! # What the tensors of the algorithm stand for -/

noncomputable section

namespace Verif.ApplyMPO

open Finset Verif.Limits Verif.DmrgNum

variable {𝕜 : Type*} [RCLike 𝕜]

/-! ## Sums over configurations -/

/-- A sum over configurations does not depend on what is outside. -/
theorem sumCfg_frame {K : Type*} [AddCommMonoid K] {dd : Int → Nat} {F F' : (Int → Nat) → K} : ∀ {n : Nat} {ρ ρ' : Int → Nat},
    (∀ σ σ' : Int → Nat, (∀ i : Int, 1 ≤ i → i ≤ n → σ i = σ' i ∧ σ i < dd i) → (∀ i : Int, ¬ (1 ≤ i ∧ i ≤ n) → σ i = ρ i ∧ σ' i = ρ' i) → F σ = F' σ') →
    sumCfg dd n F ρ = sumCfg dd n F' ρ' := by
  intro n
  induction n with
  | zero => intro ρ ρ' h; exact h ρ ρ' (fun i h1 h2 => by simp at h2; omega) fun _ _ => ⟨rfl, rfl⟩
  | succ n ih =>
    intro ρ ρ' h
    simp only [sumCfg]
    refine sum_congr rfl fun s hs => ih fun σ σ' h1 h2 => h σ σ' (fun i i1 i2 => ?_) fun i hi => ?_
    · push_cast at i2
      by_cases e : i = (n : Int) + 1
      · obtain ⟨a, b⟩ := h2 i (by omega)
        subst e
        rw [Function.update_self] at a b
        rw [a, b]
        exact ⟨rfl, by simpa using hs⟩
      · exact h1 i i1 (by omega)
    · push_cast at hi
      obtain ⟨a, b⟩ := h2 i (by omega)
      rw [Function.update_of_ne (by omega)] at a b
      exact ⟨a, b⟩

/-- The configurations of the first `n` sites. -/
def cfgs (dd : Int → Nat) : Nat → (Int → Nat) → List (Int → Nat)
  | 0, ρ => [ρ]
  | n + 1, ρ => (List.range (dd (n + 1))).flatMap fun s => cfgs dd n (Function.update ρ (n + 1) s)

theorem sumCfg_list {K : Type*} [AddCommMonoid K] {dd : Int → Nat} (F : (Int → Nat) → K) : ∀ (n : Nat) (ρ : Int → Nat),
    sumCfg dd n F ρ = ((cfgs dd n ρ).map F).sum := by
  intro n
  induction n with
  | zero => intro ρ; simp [sumCfg, cfgs]
  | succ n ih =>
    intro ρ
    have : ∀ (l : List Nat) (g : Nat → List (Int → Nat)), ((l.flatMap g).map F).sum = (l.map fun s => ((g s).map F).sum).sum := by
      intro l g
      induction l with
      | nil => rfl
      | cons x l ih => rw [List.flatMap_cons, List.map_append, List.sum_append, ih, List.map_cons, List.sum_cons]
    simp only [sumCfg, cfgs, ih]
    rw [this, Finset.sum_range, ← List.sum_ofFn, List.ofFn_eq_map, ← List.map_coe_finRange_eq_range, List.map_map]
    rfl

/-- The same with a finite type. -/
theorem sumCfg_fin {K : Type*} [AddCommMonoid K] {dd : Int → Nat} (F : (Int → Nat) → K) (n : Nat) (ρ : Int → Nat) :
    sumCfg dd n F ρ = ∑ i : Fin (cfgs dd n ρ).length, F ((cfgs dd n ρ)[i]) := by
  rw [sumCfg_list, ← List.sum_ofFn]
  congr 1
  rw [List.ofFn_eq_map]
  conv_lhs => rw [← List.map_getElem_finRange (cfgs dd n ρ), List.map_map]
  rfl

/-! ## Part of the product -/

/-- The product of the first `n` tensors of operator and state, in configuration `σ` of the result. -/
def part (M : Mpo 𝕜) (t : Int → Site 𝕜) : Nat → (Int → Nat) → Nat → Nat → 𝕜
  | 0, _, _, _ => 1
  | n + 1, σ, b, v => ∑ a ∈ range (t (n + 1)).l, ∑ w ∈ range (M.k n), ∑ s ∈ range (t (n + 1)).d,
      part M t n σ a w * ((t (n + 1)).A a s b * M.W (n + 1) w (σ (n + 1)) s v)

theorem part_congr (M : Mpo 𝕜) (t : Int → Site 𝕜) {σ σ' : Int → Nat} : ∀ {n : Nat}, (∀ i : Int, 1 ≤ i → i ≤ n → σ i = σ' i) → part M t n σ = part M t n σ' := by
  intro n
  induction n with
  | zero => intro _; rfl
  | succ n ih =>
    intro h
    funext b v
    simp only [part]
    rw [ih fun i h1 h2 => h i h1 (by push_cast; omega), h ((n : Int) + 1) (by omega) (by push_cast; omega)]

theorem part_eq (M : Mpo 𝕜) {di : Int → Nat} {t : Int → Site 𝕜} : ∀ {n : Nat} (_ : ∀ i : Int, 1 ≤ i → i ≤ n → (t i).d = di i) (σ' ρ : Int → Nat) (a w : Nat),
    part M t n σ' a w = sumCfg di n (fun σ => hop M n σ' σ w * amp t n σ a) ρ := by
  intro n
  induction n with
  | zero => intro _ σ' ρ a w; simp [part, sumCfg, hop, amp]
  | succ n ih =>
    intro h σ' ρ b v
    rw [sumCfg]
    have e : ∀ s, sumCfg di n (fun σ => hop M (n + 1) σ' σ v * amp t (n + 1) σ b) (Function.update ρ (n + 1) s) =
        ∑ a ∈ range (t (n + 1)).l, ∑ w ∈ range (M.k n), part M t n σ' a w * ((t (n + 1)).A a s b * M.W (n + 1) w (σ' (n + 1)) s v) := by
      intro s
      have : ∀ σ : Int → Nat, (∀ i : Int, (n : Int) < i → σ i = Function.update ρ ((n : Int) + 1) s i) → hop M (n + 1) σ' σ v * amp t (n + 1) σ b =
          ∑ a ∈ range (t (n + 1)).l, ∑ w ∈ range (M.k n), ((t (n + 1)).A a s b * M.W (n + 1) w (σ' (n + 1)) s v) * (hop M n σ' σ w * amp t n σ a) := by
        intro σ hσ
        have hs : σ ((n : Int) + 1) = s := by rw [hσ _ (by omega), Function.update_self]
        rw [hop, amp, hs, sum_mul_sum, sum_comm]
        refine sum_congr rfl fun a _ => sum_congr rfl fun w _ => by ring
      rw [sumCfg_congr fun σ _ h2 => this σ h2, sumCfg_add]
      refine sum_congr rfl fun a _ => ?_
      rw [sumCfg_add]
      refine sum_congr rfl fun w _ => ?_
      rw [sumCfg_mul, ← ih (fun i h1 h2 => h i h1 (by push_cast; omega)), mul_comm]
    simp only [e, part]
    rw [h ((n : Int) + 1) (by omega) (by push_cast; omega)]
    refine Eq.trans ?_ (sum_comm (s := range (t ((n : Int) + 1)).l) (t := range (di ((n : Int) + 1))))
    refine sum_congr rfl fun a _ => ?_
    rw [sum_comm]

/-- The whole product. -/
theorem part_opWave (M : Mpo 𝕜) {N : Nat} {di : Int → Nat} {t : Int → Site 𝕜} (c : Chain N di t) (σ : Int → Nat) :
    part M t N σ 0 0 = opWave M N di (wave t N) σ :=
  part_eq M (fun i h1 h2 => c.site i h1 h2) σ _ 0 0

/-- The environments. -/
theorem envs_eq (M : Mpo 𝕜) (dd : Int → Nat) (t : Int → Site 𝕜) : ∀ (n : Nat) (ρ : Int → Nat) (a w a₁ w₁ : Nat),
    envs M dd t n a w a₁ w₁ = sumCfg dd n (fun σ => part M t n σ a w * (starRingEnd 𝕜) (part M t n σ a₁ w₁)) ρ := by
  intro n
  induction n with
  | zero => intro ρ a w a₁ w₁; simp [envs, sumCfg, part]
  | succ n ih =>
    intro ρ b v b₁ v₁
    rw [envs, envStep, sumCfg]
    have e : ∀ s', sumCfg dd n (fun σ => part M t (n + 1) σ b v * (starRingEnd 𝕜) (part M t (n + 1) σ b₁ v₁)) (Function.update ρ (n + 1) s') =
        ∑ a₁ ∈ range (t (n + 1)).l, ∑ w₁ ∈ range (M.k n), ∑ s₁ ∈ range (t (n + 1)).d, ∑ a ∈ range (t (n + 1)).l, ∑ w ∈ range (M.k n), ∑ s ∈ range (t (n + 1)).d,
          ((t (n + 1)).A a s b * M.W (n + 1) w s' s v) * (starRingEnd 𝕜) ((t (n + 1)).A a₁ s₁ b₁ * M.W (n + 1) w₁ s' s₁ v₁) * envs M dd t n a w a₁ w₁ := by
      intro s'
      have : ∀ σ : Int → Nat, (∀ i : Int, (n : Int) < i → σ i = Function.update ρ ((n : Int) + 1) s' i) →
          part M t (n + 1) σ b v * (starRingEnd 𝕜) (part M t (n + 1) σ b₁ v₁) =
            ∑ a₁ ∈ range (t (n + 1)).l, ∑ w₁ ∈ range (M.k n), ∑ s₁ ∈ range (t (n + 1)).d, ∑ a ∈ range (t (n + 1)).l, ∑ w ∈ range (M.k n), ∑ s ∈ range (t (n + 1)).d,
              ((t (n + 1)).A a s b * M.W (n + 1) w s' s v) * (starRingEnd 𝕜) ((t (n + 1)).A a₁ s₁ b₁ * M.W (n + 1) w₁ s' s₁ v₁) *
                (part M t n σ a w * (starRingEnd 𝕜) (part M t n σ a₁ w₁)) := by
        intro σ hσ
        have hs : σ ((n : Int) + 1) = s' := by rw [hσ _ (by omega), Function.update_self]
        simp only [part, hs, map_sum, mul_sum]
        refine sum_congr rfl fun a₁ _ => sum_congr rfl fun w₁ _ => sum_congr rfl fun s₁ _ => ?_
        rw [sum_mul]
        refine sum_congr rfl fun a _ => ?_
        rw [sum_mul]
        refine sum_congr rfl fun w _ => ?_
        rw [sum_mul]
        refine sum_congr rfl fun s _ => ?_
        simp only [map_mul]
        ring
      rw [sumCfg_congr fun σ _ h2 => this σ h2]
      simp only [sumCfg_add, sumCfg_mul, ← ih]
    simp only [e]
    refine Eq.trans ?_ (sum_comm (s := range (t ((n : Int) + 1)).l))
    refine sum_congr rfl fun a₁ _ => ?_
    simp only [sum_mul]
    refine Eq.trans (sum_comm) ?_
    refine Eq.trans ?_ (sum_comm (s := range (M.k n)))
    refine sum_congr rfl fun w₁ _ => ?_
    refine Eq.trans (sum_comm) ?_
    refine sum_congr rfl fun s' _ => sum_congr rfl fun s₁ _ => ?_
    simp only [map_mul]
    refine Eq.trans (sum_congr rfl fun w _ => sum_comm) (Eq.trans sum_comm ?_)
    refine sum_congr rfl fun a _ => sum_congr rfl fun w _ => sum_congr rfl fun s _ => by ring

/-! ## The state during the sweep -/

/-- What `O` at site `n+1` stands for: the first `n+1` sites in configuration `σ`, and the new link on their right. -/
def st (M : Mpo 𝕜) (t : Int → Site 𝕜) (n : Nat) (O : Nat → Nat → Nat → Nat → 𝕜) (σ : Int → Nat) (b : Nat) : 𝕜 :=
  ∑ a ∈ range (t (n + 1)).l, ∑ w ∈ range (M.k n), part M t n σ a w * O a w (σ (n + 1)) b

theorem st_first (M : Mpo 𝕜) (t : Int → Site 𝕜) (n : Nat) (σ : Int → Nat) (b : Nat) (hb : b = 0) :
    st M t n (firstO (M.W (n + 1)) (t (n + 1))) σ b = part M t (n + 1) σ 0 0 := by
  subst hb
  simp only [st, part, firstO, mul_sum]

/-- Going to the next site is a projection. -/
theorem st_next (M : Mpo 𝕜) {N : Nat} {di : Int → Nat} {t : Int → Site 𝕜} (c : Chain N di t) {n : Nat} (hn : n + 2 ≤ N) (d r : Nat)
    (O : Nat → Nat → Nat → Nat → 𝕜) (U : Nat → Nat → Nat → 𝕜) (σ : Int → Nat) (m : Nat) :
    st M t n (nextO d r (t (n + 1 + 1)).l (M.k (n + 1)) O U (t (n + 1)) (M.W (n + 1))) σ m =
      ∑ s ∈ range d, ∑ b ∈ range r, U s b m * st M t (n + 1) O (Function.update σ (n + 1 + 1) s) b := by
  have e : ∀ s b, st M t (n + 1) O (Function.update σ (n + 1 + 1) s) b =
      ∑ a ∈ range (t (n + 1 + 1)).l, ∑ w ∈ range (M.k (n + 1)), part M t (n + 1) σ a w * O a w s b := by
    intro s b
    simp only [st]
    push_cast
    rw [Function.update_self, part_congr M t (σ := Function.update σ ((n : Int) + 1 + 1) s) (σ' := σ) fun i h1 h2 => Function.update_of_ne (by push_cast at h2; omega) _ _]
  simp only [e]
  have e2 : ∀ a w, ∑ s ∈ range d, ∑ b ∈ range r, U s b m * (part M t (n + 1) σ a w * O a w s b) =
      part M t (n + 1) σ a w * ∑ s ∈ range d, ∑ b ∈ range r, O a w s b * U s b m := by
    intro a w
    simp only [mul_sum]
    exact sum_congr rfl fun s _ => sum_congr rfl fun b _ => by ring
  have e3 : ∑ s ∈ range d, ∑ b ∈ range r, U s b m * ∑ a ∈ range (t (n + 1 + 1)).l, ∑ w ∈ range (M.k (n + 1)), part M t (n + 1) σ a w * O a w s b =
      ∑ a ∈ range (t (n + 1 + 1)).l, ∑ w ∈ range (M.k (n + 1)), part M t (n + 1) σ a w * ∑ s ∈ range d, ∑ b ∈ range r, O a w s b * U s b m := by
    simp only [← e2]
    simp only [mul_sum]
    refine Eq.trans (sum_congr rfl fun s _ => sum_comm) ?_
    refine Eq.trans sum_comm ?_
    refine sum_congr rfl fun a _ => ?_
    refine Eq.trans (sum_congr rfl fun s _ => sum_comm) ?_
    exact sum_comm
  rw [e3]
  simp only [st, nextO]
  generalize hg : (fun a w => ∑ s ∈ range d, ∑ b ∈ range r, O a w s b * U s b m) = g
  have hg' : ∀ a w, ∑ s ∈ range d, ∑ b ∈ range r, O a w s b * U s b m = g a w := fun a w => by rw [← hg]
  simp only [hg', part, mul_sum, sum_mul]
  refine Eq.trans (sum_congr rfl fun a' _ => sum_congr rfl fun w' _ => sum_congr rfl fun w _ => sum_comm) ?_
  refine Eq.trans (sum_congr rfl fun a' _ => sum_congr rfl fun w' _ => sum_comm) ?_
  refine Eq.trans (sum_congr rfl fun a' _ => sum_comm) ?_
  refine Eq.trans sum_comm ?_
  refine sum_congr rfl fun a _ => ?_
  refine Eq.trans (sum_congr rfl fun a' _ => sum_comm) ?_
  refine Eq.trans sum_comm ?_
  refine sum_congr rfl fun w _ => ?_
  refine sum_congr rfl fun a' _ => sum_congr rfl fun w' _ => sum_congr rfl fun s _ => by ring

/-- The density matrix. -/
theorem rho_eq (M : Mpo 𝕜) (dd : Int → Nat) (t : Int → Site 𝕜) (n : Nat) (O : Nat → Nat → Nat → Nat → 𝕜) (ρ : Int → Nat) (s b s₁ b₁ : Nat) :
    rho (t (n + 1)).l (M.k n) (envs M dd t n) O s b s₁ b₁ =
      sumCfg dd n (fun σ => st M t n O (Function.update σ (n + 1) s) b * (starRingEnd 𝕜) (st M t n O (Function.update σ (n + 1) s₁) b₁)) ρ := by
  have e : ∀ σ s b, st M t n O (Function.update σ (n + 1) s) b = ∑ a ∈ range (t (n + 1)).l, ∑ w ∈ range (M.k n), part M t n σ a w * O a w s b := by
    intro σ s b
    simp only [st]
    rw [Function.update_self, part_congr M t (σ := Function.update σ ((n : Int) + 1) s) (σ' := σ) fun i h1 h2 => Function.update_of_ne (by omega) _ _]
  have e2 : ∀ σ : Int → Nat, st M t n O (Function.update σ (n + 1) s) b * (starRingEnd 𝕜) (st M t n O (Function.update σ (n + 1) s₁) b₁) =
      ∑ a₁ ∈ range (t (n + 1)).l, ∑ w₁ ∈ range (M.k n), ∑ a ∈ range (t (n + 1)).l, ∑ w ∈ range (M.k n),
        (O a w s b * (starRingEnd 𝕜) (O a₁ w₁ s₁ b₁)) * (part M t n σ a w * (starRingEnd 𝕜) (part M t n σ a₁ w₁)) := by
    intro σ
    rw [e, e]
    simp only [map_sum, mul_sum, sum_mul, map_mul]
    exact sum_congr rfl fun a₁ _ => sum_congr rfl fun w₁ _ => sum_congr rfl fun a _ => sum_congr rfl fun w _ => by ring
  simp only [e2, sumCfg_add, sumCfg_mul, ← envs_eq, rho, sum_mul]
  exact sum_congr rfl fun a₁ _ => sum_congr rfl fun w₁ _ => sum_congr rfl fun a _ => sum_congr rfl fun w _ => by ring

/-! ## Vectors of site and link -/

/-- The tensor with given site and link. -/
def vec (d r : Nat) (f : Nat → Nat → 𝕜) : EuclideanSpace 𝕜 (Fin d × Fin r) := WithLp.toLp 2 fun i => f i.1 i.2

theorem sum_dr {K : Type*} [AddCommMonoid K] (d r : Nat) (g : Nat → Nat → K) : ∑ i : Fin d × Fin r, g i.1 i.2 = ∑ s ∈ range d, ∑ b ∈ range r, g s b := by
  rw [Fintype.sum_prod_type, Finset.sum_range]
  exact sum_congr rfl fun s _ => (Finset.sum_range fun b => g s b).symm

theorem norm_vec (d r : Nat) (f : Nat → Nat → 𝕜) : ‖vec d r f‖ ^ 2 = ∑ s ∈ range d, ∑ b ∈ range r, ‖f s b‖ ^ 2 := by
  rw [EuclideanSpace.norm_sq_eq, ← sum_dr]
  rfl

theorem inner_vec (d r : Nat) (f g : Nat → Nat → 𝕜) : inner 𝕜 (vec d r f) (vec d r g) = ∑ s ∈ range d, ∑ b ∈ range r, (starRingEnd 𝕜) (f s b) * g s b := by
  rw [PiLp.inner_apply, ← sum_dr d r fun s b => (starRingEnd 𝕜) (f s b) * g s b]
  exact sum_congr rfl fun i _ => by rw [RCLike.inner_apply, mul_comm]; rfl

/-- Orthonormal columns: distance to a combination of them. -/
theorem dist_comb {E : Type*} [NormedAddCommGroup E] [InnerProductSpace 𝕜 E] {m : Nat} {u : Fin m → E} (hu : Orthonormal 𝕜 u) (f : E) (g : Fin m → 𝕜) :
    ‖f - ∑ k, g k • u k‖ ^ 2 = ‖f‖ ^ 2 - ∑ k, ‖inner 𝕜 (u k) f‖ ^ 2 + ∑ k, ‖inner 𝕜 (u k) f - g k‖ ^ 2 := by
  have h1 : inner 𝕜 (∑ k, g k • u k) f = ∑ k, (starRingEnd 𝕜) (g k) * inner 𝕜 (u k) f := by
    rw [sum_inner]
    exact sum_congr rfl fun k _ => inner_smul_left _ _ _
  have h2 : ‖∑ k, g k • u k‖ ^ 2 = ∑ k, ‖g k‖ ^ 2 := by
    have := hu.inner_sum g g univ
    rw [← @inner_self_eq_norm_sq 𝕜, this, map_sum]
    refine sum_congr rfl fun k _ => ?_
    rw [RCLike.conj_mul, ← RCLike.ofReal_pow, RCLike.ofReal_re]
  rw [@norm_sub_sq 𝕜, h2, ← inner_conj_symm, RCLike.conj_re, h1, map_sum, mul_sum]
  have h3 : ∀ k, ‖inner 𝕜 (u k) f - g k‖ ^ 2 = ‖inner 𝕜 (u k) f‖ ^ 2 - 2 * RCLike.re ((starRingEnd 𝕜) (g k) * inner 𝕜 (u k) f) + ‖g k‖ ^ 2 := by
    intro k
    generalize inner 𝕜 (u k) f = z
    rw [@norm_sub_sq 𝕜, ← inner_conj_symm, RCLike.conj_re, RCLike.inner_apply, mul_comm z]
  simp only [h3, sum_add_distrib, sum_sub_distrib]
  ring

end Verif.ApplyMPO
