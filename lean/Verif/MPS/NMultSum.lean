import Verif.MPS.NMult
import Verif.MPS.SvdBondC96
import Verif.MPS.SumNumC79

/-! # Sums over configurations, from the left -/

noncomputable section

namespace Verif.NMult

open Finset Verif.Limits Matrix
open Verif.DmrgNum hiding Tools

variable {𝕜 : Type*} [RCLike 𝕜]

/-- The sum over the values of the sites `k+1..k+j`. -/
def sumTail {K : Type*} [AddCommMonoid K] (dd : Int → ℕ) (k : ℕ) : ℕ → ((Int → ℕ) → K) → (Int → ℕ) → K
  | 0, F, ρ => F ρ
  | j + 1, F, ρ => ∑ s ∈ range (dd ((k + j : ℕ) + 1)), sumTail dd k j F (Function.update ρ ((k + j : ℕ) + 1) s)

theorem sumCfg_tail {K : Type*} [AddCommMonoid K] (dd : Int → ℕ) (k : ℕ) (F : (Int → ℕ) → K) : ∀ (j : ℕ) (ρ : Int → ℕ),
    sumCfg dd (k + j) F ρ = sumTail dd k j (sumCfg dd k F) ρ := by
  intro j
  induction j with
  | zero => intro ρ; rfl
  | succ j ih =>
    intro ρ
    rw [← Nat.add_assoc]
    simp only [sumCfg, sumTail]
    refine sum_congr rfl fun s _ => ?_
    rw [ih]

theorem sumTail_first {K : Type*} [AddCommMonoid K] (dd : Int → ℕ) (k : ℕ) (F : (Int → ℕ) → K) : ∀ (j : ℕ) (ρ : Int → ℕ),
    sumTail dd k (j + 1) F ρ = sumTail dd (k + 1) j (fun ρ => ∑ s ∈ range (dd ((k : Int) + 1)), F (Function.update ρ ((k : Int) + 1) s)) ρ := by
  intro j
  induction j with
  | zero => intro ρ; simp [sumTail]
  | succ j ih =>
    intro ρ
    rw [sumTail]
    rw [sumTail]
    have e : k + (j + 1) = k + 1 + j := by omega
    rw [e]
    exact sum_congr rfl fun s _ => ih _

theorem sumTail_congr {K : Type*} [AddCommMonoid K] {dd : Int → ℕ} {k : ℕ} {F G : (Int → ℕ) → K} : ∀ {j : ℕ} {ρ : Int → ℕ},
    (∀ κ : Int → ℕ, (∀ i : Int, (k : Int) < i → i ≤ (k + j : ℕ) → κ i < dd i) → (∀ i : Int, (k + j : ℕ) < i → κ i = ρ i) → F κ = G κ) →
    sumTail dd k j F ρ = sumTail dd k j G ρ := by
  intro j
  induction j with
  | zero =>
    intro ρ h
    exact h ρ (fun i h1 h2 => by simp at h2; omega) fun _ _ => rfl
  | succ j ih =>
    intro ρ h
    simp only [sumTail]
    refine sum_congr rfl fun s hs => ih fun κ h1 h2 => h κ (fun i i1 i2 => ?_) fun i hi => ?_
    · by_cases e : i = ((k + j : ℕ) : Int) + 1
      · rw [h2 i (by omega), e, Function.update_self]
        simpa using hs
      · exact h1 i i1 (by push_cast at *; omega)
    · rw [h2 i (by push_cast at *; omega), Function.update_of_ne (by push_cast at *; omega)]

theorem sumTail_add {K ι : Type*} [AddCommMonoid K] {dd : Int → ℕ} {k : ℕ} (S : Finset ι) (F : ι → (Int → ℕ) → K) : ∀ (j : ℕ) (ρ : Int → ℕ),
    sumTail dd k j (fun κ => ∑ i ∈ S, F i κ) ρ = ∑ i ∈ S, sumTail dd k j (F i) ρ := by
  intro j
  induction j with
  | zero => intro ρ; rfl
  | succ j ih =>
    intro ρ
    simp only [sumTail, ih]
    rw [sum_comm]

theorem sumTail_map {K K' : Type*} [AddCommMonoid K] [AddCommMonoid K'] {dd : Int → ℕ} {k : ℕ} (f : K →+ K') (F : (Int → ℕ) → K) : ∀ (j : ℕ) (ρ : Int → ℕ),
    f (sumTail dd k j F ρ) = sumTail dd k j (fun κ => f (F κ)) ρ := by
  intro j
  induction j with
  | zero => intro ρ; rfl
  | succ j ih =>
    intro ρ
    simp only [sumTail, map_sum, ih]

theorem sumTail_zero {K : Type*} [AddCommMonoid K] (dd : Int → ℕ) (k : ℕ) : ∀ (j : ℕ) (ρ : Int → ℕ), sumTail dd k j (fun _ => (0 : K)) ρ = 0 := by
  intro j
  induction j with
  | zero => intro ρ; rfl
  | succ j ih => intro ρ; simp [sumTail, ih]

/-! ## Products on the left that are isometries -/

/-- The inner product of two functions of the configurations. -/
def ip (dd : Int → ℕ) (N : ℕ) (f g : (Int → ℕ) → 𝕜) : 𝕜 := sumCfg dd N (fun κ => (starRingEnd 𝕜) (f κ) * g κ) fun _ => 0

theorem ip_congr {dd : Int → ℕ} {N : ℕ} {f f' g g' : (Int → ℕ) → 𝕜} (hf : TEvol.Eqv dd N f f') (hg : TEvol.Eqv dd N g g') : ip dd N f g = ip dd N f' g' :=
  sumCfg_congr fun σ h _ => by rw [hf σ h, hg σ h]

theorem ip_add (dd : Int → ℕ) (N : ℕ) (f g h : (Int → ℕ) → 𝕜) : ip dd N f (fun κ => g κ + h κ) = ip dd N f g + ip dd N f h := by
  have := sumCfg_add (dd := dd) (univ : Finset (Fin 2)) (fun i κ => (starRingEnd 𝕜) (f κ) * (if i = 0 then g κ else h κ)) N fun _ => 0
  simp only [Fin.sum_univ_two] at this
  unfold ip
  simp only [mul_add]
  simpa using this

theorem ip_self (dd : Int → ℕ) (N : ℕ) (f : (Int → ℕ) → 𝕜) : ip dd N f f = (normSq dd N f : 𝕜) := by
  have := sumCfg_map (dd := dd) (RCLike.ofRealAm (K := 𝕜)).toLinearMap.toAddMonoidHom (fun κ => ‖f κ‖ ^ 2) N fun _ => 0
  unfold ip normSq
  refine Eq.trans ?_ this.symm
  refine sumCfg_congr fun σ _ _ => ?_
  rw [RCLike.conj_mul]
  change _ = ((‖f σ‖ ^ 2 : ℝ) : 𝕜)
  push_cast
  rfl

theorem ip_swap {dd : Int → ℕ} {N : ℕ} (f g : (Int → ℕ) → 𝕜) : ip dd N g f = (starRingEnd 𝕜) (ip dd N f g) := by
  have := sumCfg_map (dd := dd) (starRingEnd 𝕜).toAddMonoidHom (fun κ => (starRingEnd 𝕜) (f κ) * g κ) N fun _ => 0
  refine Eq.trans ?_ this.symm
  refine sumCfg_congr fun σ _ _ => ?_
  change _ = (starRingEnd 𝕜) ((starRingEnd 𝕜) (f σ) * g σ)
  rw [map_mul, RCLike.conj_conj, mul_comm]

/-- Pythagoras. -/
theorem pyth {dd : Int → ℕ} {N : ℕ} {f g : (Int → ℕ) → 𝕜} (h : ip dd N f g = 0) : normSq dd N (fun κ => f κ + g κ) = normSq dd N f + normSq dd N g := by
  have h' : ip dd N g f = 0 := by rw [ip_swap, h, map_zero]
  have e : ip dd N (fun κ => f κ + g κ) (fun κ => f κ + g κ) = ip dd N f f + ip dd N g g := by
    rw [ip_add, ip_swap f, ip_swap g, ip_add, ip_add, h, h', add_zero, zero_add, ← ip_swap, ← ip_swap]
  rw [ip_self, ip_self, ip_self] at e
  exact_mod_cast e

/-- Different links on the right of the first `k` sites are orthogonal. -/
def Iso (dd : Int → ℕ) (t : Int → Site 𝕜) (k m : ℕ) : Prop := ∀ ρ, ∀ p < m, ∀ p' < m,
  sumCfg dd k (fun κ => (starRingEnd 𝕜) (amp t k κ p) * amp t k κ p') ρ = if p = p' then 1 else 0

theorem iso_zero (dd : Int → ℕ) (t : Int → Site 𝕜) : Iso dd t 0 1 := by
  intro ρ p hp p' hp'
  simp only [sumCfg, amp, map_one, one_mul]
  rw [if_pos (by omega)]

/-- The value depends only on the sites after `k`. -/
def TL {α : Type*} (k : ℕ) (X : (Int → ℕ) → α) : Prop := ∀ κ κ' : Int → ℕ, (∀ i : Int, (k : Int) < i → κ i = κ' i) → X κ = X κ'

/-- A tensor with the product of the first `k` tensors. -/
def emb (t : Int → Site 𝕜) (k m : ℕ) (X : ℕ → (Int → ℕ) → 𝕜) (κ : Int → ℕ) : 𝕜 := ∑ p ∈ range m, amp t k κ p * X p κ

theorem Iso.sum {dd : Int → ℕ} {t : Int → Site 𝕜} {k m : ℕ} (h : Iso dd t k m) {X Z : ℕ → (Int → ℕ) → 𝕜} (hX : ∀ p, TL k (X p)) (hZ : ∀ p, TL k (Z p)) (ρ : Int → ℕ) :
    sumCfg dd k (fun κ => (starRingEnd 𝕜) (emb t k m X κ) * emb t k m Z κ) ρ = ∑ p ∈ range m, (starRingEnd 𝕜) (X p ρ) * Z p ρ := by
  have e : ∀ κ : Int → ℕ, (∀ i : Int, (k : Int) < i → κ i = ρ i) → (starRingEnd 𝕜) (emb t k m X κ) * emb t k m Z κ =
      ∑ p ∈ range m, ∑ p' ∈ range m, ((starRingEnd 𝕜) (X p ρ) * Z p' ρ) * ((starRingEnd 𝕜) (amp t k κ p) * amp t k κ p') := by
    intro κ hκ
    rw [emb, emb, map_sum, sum_mul_sum]
    refine sum_congr rfl fun p _ => sum_congr rfl fun p' _ => ?_
    rw [hX p κ ρ hκ, hZ p' κ ρ hκ, map_mul]
    ring
  rw [sumCfg_congr fun κ _ h2 => e κ h2, sumCfg_add]
  refine sum_congr rfl fun p hp => ?_
  rw [sumCfg_add]
  simp only [sumCfg_mul]
  rw [sum_congr rfl fun p' hp' => by rw [h ρ p (by simpa using hp) p' (by simpa using hp')]]
  simp only [mul_ite, mul_one, mul_zero, sum_ite_eq]
  rw [if_pos hp]

theorem Iso.ip {dd : Int → ℕ} {t : Int → Site 𝕜} {k m j N : ℕ} (h : Iso dd t k m) (hN : k + j = N) {X Z : ℕ → (Int → ℕ) → 𝕜} (hX : ∀ p, TL k (X p)) (hZ : ∀ p, TL k (Z p)) :
    ip dd N (emb t k m X) (emb t k m Z) = sumTail dd k j (fun ρ => ∑ p ∈ range m, (starRingEnd 𝕜) (X p ρ) * Z p ρ) fun _ => 0 := by
  subst hN
  rw [NMult.ip, sumCfg_tail]
  exact sumTail_congr fun κ _ _ => h.sum hX hZ κ

theorem Iso.norm {dd : Int → ℕ} {t : Int → Site 𝕜} {k m j N : ℕ} (h : Iso dd t k m) (hN : k + j = N) {X : ℕ → (Int → ℕ) → 𝕜} (hX : ∀ p, TL k (X p)) :
    normSq dd N (emb t k m X) = sumTail dd k j (fun ρ => ∑ p ∈ range m, ‖X p ρ‖ ^ 2) fun _ => 0 := by
  have e := h.ip hN hX hX
  rw [ip_self] at e
  have := sumTail_map (dd := dd) (k := k) (RCLike.ofRealAm (K := 𝕜)).toLinearMap.toAddMonoidHom (fun ρ => ∑ p ∈ range m, ‖X p ρ‖ ^ 2) j fun _ => 0
  have e2 : (normSq dd N (emb t k m X) : 𝕜) = ((sumTail dd k j (fun ρ => ∑ p ∈ range m, ‖X p ρ‖ ^ 2) fun _ => 0 : ℝ) : 𝕜) := by
    rw [e]
    refine Eq.trans ?_ this.symm
    refine sumTail_congr fun κ _ _ => ?_
    change _ = ((∑ p ∈ range m, ‖X p κ‖ ^ 2 : ℝ) : 𝕜)
    push_cast
    exact sum_congr rfl fun p _ => RCLike.conj_mul _
  exact_mod_cast e2

theorem amp_succ (t : Int → Site 𝕜) (k : ℕ) (κ : Int → ℕ) (c : ℕ) :
    amp t (k + 1) κ c = emb t k (t ((k : Int) + 1)).l (fun a κ => (t ((k : Int) + 1)).A a (κ ((k : Int) + 1)) c) κ := rfl

theorem Iso.step {dd : Int → ℕ} {t : Int → Site 𝕜} {k : ℕ} (h : Iso dd t k (t ((k : Int) + 1)).l) (hd : (t ((k : Int) + 1)).d = dd ((k : Int) + 1)) (hL : LO (t ((k : Int) + 1))) :
    Iso dd t (k + 1) (t ((k : Int) + 1)).r := by
  intro ρ p hp p' hp'
  rw [sumCfg]
  have e : ∀ s, sumCfg dd k (fun κ => (starRingEnd 𝕜) (amp t (k + 1) κ p) * amp t (k + 1) κ p') (Function.update ρ ((k : Int) + 1) s) =
      ∑ a ∈ range (t ((k : Int) + 1)).l, (starRingEnd 𝕜) ((t ((k : Int) + 1)).A a s p) * (t ((k : Int) + 1)).A a s p' := by
    intro s
    simp only [amp_succ]
    rw [h.sum (fun a κ κ' hκ => by rw [hκ _ (by omega)]) (fun a κ κ' hκ => by rw [hκ _ (by omega)])]
    simp only [Function.update_self]
  simp only [e]
  rw [sum_comm, ← hd]
  exact hL p hp p' hp'

theorem emb_sub (t : Int → Site 𝕜) (k m : ℕ) (X Z : ℕ → (Int → ℕ) → 𝕜) (κ : Int → ℕ) : emb t k m X κ - emb t k m Z κ = emb t k m (fun p κ => X p κ - Z p κ) κ := by
  simp only [emb, mul_sub, sum_sub_distrib]

theorem emb_congr {t t' : Int → Site 𝕜} {k : ℕ} (h : ∀ i : Int, 1 ≤ i → i ≤ k → t i = t' i) (m : ℕ) (X : ℕ → (Int → ℕ) → 𝕜) : emb t k m X = emb t' k m X := by
  funext κ
  rw [emb, emb, TEvol.amp_congr (t' := t') (σ' := κ) fun i h1 h2 => ⟨h i h1 h2, rfl⟩]

/-- One tensor more. -/
theorem emb_succ (t : Int → Site 𝕜) (k m : ℕ) (Z : ℕ → (Int → ℕ) → 𝕜) (κ : Int → ℕ) :
    emb t (k + 1) m Z κ = emb t k (t ((k : Int) + 1)).l (fun p κ => ∑ q ∈ range m, (t ((k : Int) + 1)).A p (κ ((k : Int) + 1)) q * Z q κ) κ := by
  simp only [emb, amp, sum_mul, mul_sum]
  rw [sum_comm]
  exact sum_congr rfl fun _ _ => sum_congr rfl fun _ _ => by ring

end Verif.NMult
