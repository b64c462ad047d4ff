import Verif.MPS.DmrgNumSums

/-!
# What a DMRG calculation is about: the state and the operator as functions of the configurations

The first part is specification and does not use the environments: amplitudes of the state, elements of the operator, sums over all
configurations. The rest connects it with the environments.
-/

noncomputable section

namespace Verif.DmrgNum

open Finset Verif.Limits

variable {𝕜 : Type*} [RCLike 𝕜]

/-! ## Specification -/

/-- The sum over the values of the sites `1..n`; `ρ` gives the values of the others. -/
def sumCfg {K : Type*} [AddCommMonoid K] (dd : Int → Nat) : Nat → ((Int → Nat) → K) → (Int → Nat) → K
  | 0, F, ρ => F ρ
  | n + 1, F, ρ => ∑ s ∈ range (dd (n + 1)), sumCfg dd n F (Function.update ρ (n + 1) s)

/-- The product of the first `n` tensors in configuration `σ`, as a function of the link on the right. -/
def amp (t : Int → Site 𝕜) : Nat → (Int → Nat) → Nat → 𝕜
  | 0, _, _ => 1
  | n + 1, σ, c => ∑ a ∈ range (t (n + 1)).l, amp t n σ a * (t (n + 1)).A a (σ (n + 1)) c

/-- The same for the operator, in configurations `σ'` (primed) and `σ`. -/
def hop (M : Mpo 𝕜) : Nat → (Int → Nat) → (Int → Nat) → Nat → 𝕜
  | 0, _, _, _ => 1
  | n + 1, σ', σ, w' => ∑ w ∈ range (M.k n), hop M n σ' σ w * M.W (n + 1) w (σ' (n + 1)) (σ (n + 1)) w'

/-- The wavefunction. -/
def wave (t : Int → Site 𝕜) (N : Nat) (σ : Int → Nat) : 𝕜 := amp t N σ 0

/-- An element of the operator. -/
def elem (M : Mpo 𝕜) (N : Nat) (σ' σ : Int → Nat) : 𝕜 := hop M N σ' σ 0

/-- The matrix element between two wavefunctions. -/
def sandwich (M : Mpo 𝕜) (dd : Int → Nat) (N : Nat) (φ' φ : (Int → Nat) → 𝕜) : 𝕜 :=
  sumCfg dd N (fun σ' => sumCfg dd N (fun σ => (starRingEnd 𝕜) (φ' σ') * elem M N σ' σ * φ σ) fun _ => 0) fun _ => 0

/-- The square of the norm of a wavefunction. -/
def normSq (dd : Int → Nat) (N : Nat) (φ : (Int → Nat) → 𝕜) : ℝ := sumCfg dd N (fun σ => ‖φ σ‖ ^ 2) fun _ => 0

/-- The energy of a wavefunction. -/
def energyOf (M : Mpo 𝕜) (dd : Int → Nat) (N : Nat) (φ : (Int → Nat) → 𝕜) : ℝ := RCLike.re (sandwich M dd N φ φ) / normSq dd N φ

/-- The operator is Hermitian. -/
def Herm (M : Mpo 𝕜) (dd : Int → Nat) (N : Nat) : Prop :=
  ∀ σ' σ : Int → Nat, (∀ i : Int, 1 ≤ i → i ≤ N → σ' i < dd i ∧ σ i < dd i) → elem M N σ' σ = (starRingEnd 𝕜) (elem M N σ σ')

/-- The tensors fit together. -/
structure Chain (N : Nat) (dd : Int → Nat) (t : Int → Site 𝕜) : Prop where
  first : (t 1).l = 1
  last : (t N).r = 1
  site : ∀ i : Int, 1 ≤ i → i ≤ N → (t i).d = dd i
  link : ∀ i : Int, 1 ≤ i → i < N → (t i).r = (t (i + 1)).l

/-- Left orthogonal. -/
def LO (A : Site 𝕜) : Prop := ∀ c' < A.r, ∀ c < A.r,
  ∑ a ∈ range A.l, ∑ s ∈ range A.d, (starRingEnd 𝕜) (A.A a s c') * A.A a s c = if c' = c then 1 else 0

/-- Right orthogonal. -/
def RO (A : Site 𝕜) : Prop := ∀ a' < A.l, ∀ a < A.l,
  ∑ c ∈ range A.r, ∑ s ∈ range A.d, (starRingEnd 𝕜) (A.A a' s c) * A.A a s c = if a' = a then 1 else 0

/-! ## Sums over configurations -/

theorem sumCfg_congr {K : Type*} [AddCommMonoid K] {dd : Int → Nat} {F G : (Int → Nat) → K} : ∀ {n : Nat} {ρ : Int → Nat},
    (∀ σ : Int → Nat, (∀ i : Int, 1 ≤ i → i ≤ n → σ i < dd i) → (∀ i : Int, n < i → σ i = ρ i) → F σ = G σ) → sumCfg dd n F ρ = sumCfg dd n G ρ := by
  intro n
  induction n with
  | zero => intro ρ h; exact h ρ (fun i h1 h2 => by simp at h2; omega) fun _ _ => rfl
  | succ n ih =>
    intro ρ h
    simp only [sumCfg]
    refine sum_congr rfl fun s hs => ih fun σ h1 h2 => h σ (fun i i1 i2 => ?_) fun i hi => ?_
    · by_cases e : i = (n : Int) + 1
      · subst e
        rw [h2 _ (by omega), Function.update_self]
        simpa using hs
      · exact h1 i i1 (by push_cast at i2; omega)
    · push_cast at hi
      rw [h2 i (by omega), Function.update_of_ne (by omega)]

theorem sumCfg_add {K ι : Type*} [AddCommMonoid K] {dd : Int → Nat} (S : Finset ι) (F : ι → (Int → Nat) → K) : ∀ (n : Nat) (ρ : Int → Nat),
    sumCfg dd n (fun σ => ∑ i ∈ S, F i σ) ρ = ∑ i ∈ S, sumCfg dd n (F i) ρ := by
  intro n
  induction n with
  | zero => intro ρ; rfl
  | succ n ih =>
    intro ρ
    simp only [sumCfg, ih]
    rw [sum_comm]

theorem sumCfg_mul {K : Type*} [NonUnitalNonAssocSemiring K] {dd : Int → Nat} (c : K) (F : (Int → Nat) → K) : ∀ (n : Nat) (ρ : Int → Nat),
    sumCfg dd n (fun σ => c * F σ) ρ = c * sumCfg dd n F ρ := by
  intro n
  induction n with
  | zero => intro ρ; rfl
  | succ n ih => intro ρ; simp only [sumCfg, ih, mul_sum]

theorem sumCfg_map {K K' : Type*} [AddCommMonoid K] [AddCommMonoid K'] {dd : Int → Nat} (f : K →+ K') (F : (Int → Nat) → K) : ∀ (n : Nat) (ρ : Int → Nat),
    f (sumCfg dd n F ρ) = sumCfg dd n (fun σ => f (F σ)) ρ := by
  intro n
  induction n with
  | zero => intro ρ; rfl
  | succ n ih => intro ρ; simp only [sumCfg, map_sum, ih]

theorem sumCfg_comm {K : Type*} [AddCommMonoid K] {dd : Int → Nat} (F : (Int → Nat) → (Int → Nat) → K) : ∀ (n m : Nat) (ρ ρ' : Int → Nat),
    sumCfg dd n (fun σ => sumCfg dd m (F σ) ρ') ρ = sumCfg dd m (fun σ' => sumCfg dd n (fun σ => F σ σ') ρ) ρ' := by
  intro n
  induction n with
  | zero => intro m ρ ρ'; rfl
  | succ n ih =>
    intro m ρ ρ'
    simp only [sumCfg, ih]
    rw [← sumCfg_add]

/-! ## Environments -/

/-- The environment of the first `n` sites, with tensors `tb` for the primed state and `tk` for the state. -/
def lv (M : Mpo 𝕜) (tb tk : Int → Site 𝕜) : Nat → Nat → Nat → Nat → 𝕜
  | 0 => fun _ _ _ => 1
  | n + 1 => absL (M.k n) (M.W (n + 1)) (tb (n + 1)) (tk (n + 1)) (lv M tb tk n)

/-- The environment of the last `j` sites. -/
def rv (M : Mpo 𝕜) (N : Nat) (tb tk : Int → Site 𝕜) : Nat → Nat → Nat → Nat → 𝕜
  | 0 => fun _ _ _ => 1
  | j + 1 => absR (M.k (N - j)) (M.W (N - j)) (tb (N - j)) (tk (N - j)) (rv M N tb tk j)

theorem lv_congr (M : Mpo 𝕜) {tb tk tb' tk' : Int → Site 𝕜} : ∀ {n : Nat}, (∀ i : Int, 1 ≤ i → i ≤ n → tb i = tb' i ∧ tk i = tk' i) →
    lv M tb tk n = lv M tb' tk' n := by
  intro n
  induction n with
  | zero => intro _; rfl
  | succ n ih =>
    intro h
    have := h ((n : Int) + 1) (by omega) (by push_cast; omega)
    rw [lv, lv, this.1, this.2, ih fun i h1 h2 => h i h1 (by push_cast; omega)]

theorem rv_congr (M : Mpo 𝕜) {N : Nat} {tb tk tb' tk' : Int → Site 𝕜} : ∀ {j : Nat},
    (∀ i : Int, (N : Int) - j < i → i ≤ N → tb i = tb' i ∧ tk i = tk' i) → rv M N tb tk j = rv M N tb' tk' j := by
  intro j
  induction j with
  | zero => intro _; rfl
  | succ j ih =>
    intro h
    have := h ((N : Int) - j) (by push_cast; omega) (by omega)
    rw [rv, rv, this.1, this.2, ih fun i h1 h2 => h i (by push_cast; omega) h2]

/-- The environments of the model are these. -/
theorem left_val (M : Mpo 𝕜) (t : Int → Site 𝕜) : ∀ n : Nat, valOf (LocalMPO.leftEnv (absorb M) none t n) = lv M t t n ∧
    (LocalMPO.leftEnv (absorb M) none t n).elim (n = 0) (fun e => e.bond = n) := by
  intro n
  induction n with
  | zero => exact ⟨rfl, rfl⟩
  | succ n ih =>
    have hc : (LocalMPO.leftEnv (absorb M) none t n).elim (decide ((n : Int) + 1 = 1)) (fun e => decide (e.bond = (n : Int) + 1 - 1)) = true := by
      have h := ih.2
      generalize LocalMPO.leftEnv (absorb M) none t n = E at h
      cases E with
      | none => simp only [Option.elim] at h ⊢; simp [h]
      | some e => simp only [Option.elim] at h ⊢; simp [h]
    rw [LocalMPO.leftEnv, absorb, if_pos hc, ih.1]
    refine ⟨?_, by simp⟩
    rw [lv, show (n : Int) + 1 - 1 = n by ring]
    rfl

theorem right_val (M : Mpo 𝕜) {N : Nat} (hN : 2 ≤ N) (t : Int → Site 𝕜) : ∀ j : Nat, valOf (LocalMPO.rightEnv (absorb M) none t N j) = rv M N t t j ∧
    (LocalMPO.rightEnv (absorb M) none t N j).elim (j = 0) (fun e => e.bond = (N : Int) - j) := by
  intro j
  induction j with
  | zero => exact ⟨rfl, rfl⟩
  | succ j ih =>
    have hc : ¬(LocalMPO.rightEnv (absorb M) none t N j).elim (decide ((N : Int) - j = 1)) (fun e => decide (e.bond = (N : Int) - j - 1)) = true := by
      have h := ih.2
      generalize LocalMPO.rightEnv (absorb M) none t N j = E at h
      cases E with
      | none => simp only [Option.elim] at h ⊢; simp only [h, decide_eq_true_eq]; push_cast; omega
      | some e => simp only [Option.elim] at h ⊢; simp only [h, decide_eq_true_eq]; omega
    rw [LocalMPO.rightEnv, absorb, if_neg hc, ih.1]
    refine ⟨?_, by simp only [Option.elim]; push_cast; ring⟩
    rfl

/-- The sum over the links at a bond does not depend on the bond. -/
theorem pairing (M : Mpo 𝕜) {N : Nat} {dd : Int → Nat} {tb tk : Int → Site 𝕜} (cb : Chain N dd tb) (ck : Chain N dd tk) (hk : M.k N = 1) :
    ∀ {j n : Nat}, 1 ≤ n → n + j = N →
      ∑ z ∈ tri (tb n).r (M.k n) (tk n).r, lv M tb tk n z.1 z.2.1 z.2.2 * rv M N tb tk j z.1 z.2.1 z.2.2 = lv M tb tk N 0 0 0 := by
  intro j
  induction j with
  | zero =>
    intro n h1 h2
    obtain rfl : n = N := by omega
    rw [cb.last, ck.last, hk, sum_tri]
    simp [rv]
  | succ j ih =>
    intro n h1 h2
    rw [← ih (n := n + 1) (by omega) (by omega)]
    have e : (N : Int) - j = n + 1 := by omega
    rw [rv, e, lv]
    push_cast
    rw [pair_move, cb.link n (by omega) (by omega), ck.link n (by omega) (by omega)]

end Verif.DmrgNum
