import Verif.MPS.SumNum

/-! # C79: sums of states with truncation -/

noncomputable section

namespace Verif.SumNum

open Finset Verif.Limits Verif.Orthog
open Verif.ApplyMPO hiding rho envs envStep nextO maxAt sweep
open Verif.DmrgNum hiding Tools idM

variable {𝕜 : Type*} [RCLike 𝕜]

/-! ## The chain of the sum -/

theorem sumDim_pos (l₁ l₂ : Nat) : 1 ≤ sumDim l₁ l₂ := by
  rw [sumDim]
  split_ifs <;> omega

theorem sum_first (l : Nat) (x : Nat → 𝕜) (q : Nat) : ∑ a ∈ range l, x a * first a q = if q < l then x q else 0 := by
  simp [first]

theorem sum_first' (l : Nat) (x : Nat → 𝕜) (q : Nat) : ∑ a ∈ range l, first a q * x a = if q < l then x q else 0 := by
  simp [first]

theorem sum_second (l₁ l : Nat) (x : Nat → 𝕜) (q : Nat) : ∑ a ∈ range l, x a * second l₁ a q = if l₁ ≤ q ∧ q < l₁ + l then x (q - l₁) else 0 := by
  simp only [second, mul_ite, mul_one, mul_zero]
  split_ifs with h
  · rw [sum_eq_single (q - l₁)]
    · rw [if_pos (by omega)]
    · intro b _ hb
      rw [if_neg (by omega)]
    · intro h'
      exact absurd (by simp; omega) h'
  · refine sum_eq_zero fun a ha => ?_
    have : a < l := by simpa using ha
    rw [if_neg (by omega)]

/-- The product over a new link. -/
theorem contract (l₁ l₂ : Nat) (x y F G : Nat → 𝕜) :
    ∑ q ∈ range (sumDim l₁ l₂), (∑ a ∈ range l₁, x a * first a q + ∑ b ∈ range l₂, y b * second l₁ b q) *
        (∑ a ∈ range l₁, first a q * F a + ∑ b ∈ range l₂, second l₁ b q * G b) =
      ∑ a ∈ range l₁, x a * F a + ∑ b ∈ range l₂, y b * G b := by
  have e2 : ∀ q, ∑ b ∈ range l₂, second l₁ b q * G b = if l₁ ≤ q ∧ q < l₁ + l₂ then G (q - l₁) else 0 := fun q => by
    rw [← sum_second]
    exact sum_congr rfl fun _ _ => mul_comm _ _
  simp only [sum_first, sum_first', sum_second, e2]
  by_cases h : l₁ + l₂ = 0
  · obtain ⟨rfl, rfl⟩ : l₁ = 0 ∧ l₂ = 0 := by omega
    simp
  · rw [sumDim, if_neg h, sum_range_add]
    congr 1
    · refine sum_congr rfl fun q hq => ?_
      have h' : q < l₁ := by simpa using hq
      simp only [if_pos h', if_neg (show ¬ (l₁ ≤ q ∧ q < l₁ + l₂) by omega), add_zero]
    · refine sum_congr rfl fun q hq => ?_
      have : q < l₂ := by simpa using hq
      simp [this]

variable {N : Nat} {dd : Int → Nat} {L R : Int → Site 𝕜}

theorem siteSum_mid {i : Int} (h1 : i ≠ 1) (h2 : i ≠ N) (A B : Site 𝕜) : siteSum N i A B = ⟨sumDim A.l B.l, A.d, sumDim A.r B.r,
    plus A.d (rmul first A.r (lmul first A.l A.A)) (rmul (second A.r) B.r (lmul (second A.l) B.l B.A))⟩ := by
  rw [siteSum, if_neg h1, if_neg h2]

theorem siteSum_last {i : Int} (h1 : i ≠ 1) (h2 : i = N) (A B : Site 𝕜) : siteSum N i A B = ⟨sumDim A.l B.l, A.d, A.r,
    plus A.d (lmul first A.l A.A) (lmul (second A.l) B.l B.A)⟩ := by
  rw [siteSum, if_neg h1, if_pos h2]

/-- The tensors of the sum. -/
abbrev sumT (N : Nat) (L R : Int → Site 𝕜) : Int → Site 𝕜 := fun i => siteSum N i (L i) (R i)

theorem amp_sum (cL : Chain N dd L) (cR : Chain N dd R) {σ : Int → Nat} (hσ : TEvol.Cfg dd N σ) : ∀ {n : Nat}, n + 1 < N → ∀ q,
    amp (sumT N L R) (n + 1) σ q = ∑ a ∈ range (L (n + 1)).r, amp L (n + 1) σ a * first a q +
      ∑ b ∈ range (R (n + 1)).r, amp R (n + 1) σ b * second (L (n + 1)).r b q := by
  intro n
  induction n with
  | zero =>
    intro h q
    have hs : σ 1 < (L 1).d := by rw [cL.site 1 le_rfl (by omega)]; exact hσ 1 le_rfl (by omega)
    simp only [amp, sumT, siteSum]
    simp [cL.first, cR.first, plus, rmul, hs]
  | succ n ih =>
    intro h q'
    have hs : σ ((n : Int) + 1 + 1) < (L ((n : Int) + 1 + 1)).d := by
      rw [cL.site _ (by omega) (by omega)]; exact hσ _ (by omega) (by omega)
    have l1 := cL.link ((n : Int) + 1) (by omega) (by omega)
    have l2 := cR.link ((n : Int) + 1) (by omega) (by omega)
    have e := siteSum_mid (N := N) (i := (n : Int) + 1 + 1) (by omega) (by omega) (L ((n : Int) + 1 + 1)) (R ((n : Int) + 1 + 1))
    rw [amp]
    push_cast
    rw [sumT, e]
    dsimp only
    refine Eq.trans (sum_congr rfl fun q _ => ?_) (Eq.trans (contract (L ((n : Int) + 1 + 1)).l (R ((n : Int) + 1 + 1)).l (amp L (n + 1) σ) (amp R (n + 1) σ)
      (fun a => ∑ c ∈ range (L ((n : Int) + 1 + 1)).r, (L ((n : Int) + 1 + 1)).A a (σ ((n : Int) + 1 + 1)) c * first c q')
      (fun a => ∑ c ∈ range (R ((n : Int) + 1 + 1)).r, (R ((n : Int) + 1 + 1)).A a (σ ((n : Int) + 1 + 1)) c * second (L ((n : Int) + 1 + 1)).r c q')) ?_)
    · rw [ih (by omega), l1, l2]
      congr 1
      rw [plus, if_pos hs]
      simp only [rmul, lmul, sum_mul, mul_sum, mul_assoc]
      rw [sum_comm]
      congr 1
      rw [sum_comm]
    · simp only [mul_sum]
      rw [sum_comm]
      congr 1
      · refine sum_congr rfl fun c _ => ?_
        rw [amp, sum_mul]
        push_cast
        exact sum_congr rfl fun a _ => by ring
      · rw [sum_comm]
        refine sum_congr rfl fun c _ => ?_
        rw [amp, sum_mul]
        push_cast
        exact sum_congr rfl fun a _ => by ring

theorem wave_sum (hN : 2 ≤ N) (cL : Chain N dd L) (cR : Chain N dd R) {σ : Int → Nat} (hσ : TEvol.Cfg dd N σ) :
    wave (sumT N L R) N σ = wave L N σ + wave R N σ := by
  obtain ⟨n, rfl⟩ : ∃ n, N = n + 1 + 1 := ⟨N - 2, by omega⟩
  have hs : σ ((n : Int) + 1 + 1) < (L ((n : Int) + 1 + 1)).d := by
    rw [cL.site _ (by omega) (by push_cast; omega)]; exact hσ _ (by omega) (by push_cast; omega)
  have l1 := cL.link ((n : Int) + 1) (by omega) (by push_cast; omega)
  have l2 := cR.link ((n : Int) + 1) (by omega) (by push_cast; omega)
  have e := siteSum_last (N := n + 1 + 1) (i := (n : Int) + 1 + 1) (by omega) (by push_cast; rfl) (L ((n : Int) + 1 + 1)) (R ((n : Int) + 1 + 1))
  simp only [wave]
  rw [amp]
  push_cast
  rw [sumT, e]
  dsimp only
  refine Eq.trans (sum_congr rfl fun q _ => ?_) (Eq.trans (contract (L ((n : Int) + 1 + 1)).l (R ((n : Int) + 1 + 1)).l (amp L (n + 1) σ) (amp R (n + 1) σ)
    (fun a => (L ((n : Int) + 1 + 1)).A a (σ ((n : Int) + 1 + 1)) 0) (fun a => (R ((n : Int) + 1 + 1)).A a (σ ((n : Int) + 1 + 1)) 0)) ?_)
  · rw [amp_sum cL cR hσ (by omega), l1, l2]
    congr 1
    rw [plus, if_pos hs]
    rfl
  · rw [amp, amp]
    push_cast
    rfl

theorem chain_sum (hN : 2 ≤ N) (cL : Chain N dd L) (cR : Chain N dd R) : Chain N dd (sumT N L R) := by
  refine ⟨?_, ?_, fun i h1 h2 => ?_, fun i h1 h2 => ?_⟩
  · rw [sumT, siteSum, if_pos rfl]; exact cL.first
  · rw [sumT, siteSum, if_neg (by omega), if_pos rfl]; exact cL.last
  · rw [← cL.site i h1 h2, sumT, siteSum]
    split_ifs <;> rfl
  · have e : (sumT N L R i).r = sumDim (L i).r (R i).r := by
      rw [sumT, siteSum]
      split_ifs <;> first | rfl | omega
    have e' : (sumT N L R (i + 1)).l = sumDim (L (i + 1)).l (R (i + 1)).l := by
      rw [sumT, siteSum]
      split_ifs <;> first | rfl | omega
    rw [e, e', cL.link i h1 h2, cR.link i h1 h2]

theorem state_sum (hN : 2 ≤ N) (hd : ∀ i : Int, 1 ≤ i → i ≤ N → 1 ≤ dd i) (cL : Chain N dd L) (cR : Chain N dd R) (x y : Int) :
    State (⟨N, sumT N L R, x, y⟩ : MPS (Site 𝕜)) := by
  have c := chain_sum hN cL cR
  refine ⟨hN, ⟨c.first, c.last, fun _ _ _ => rfl, c.link⟩, fun i a s b h => ?_, fun i h1 h2 => ?_, fun i h1 h2 => ?_⟩
  · dsimp only [sumT] at h ⊢
    rw [siteSum] at h ⊢
    split_ifs at h ⊢ <;> simp only [plus] at h ⊢ <;> rw [if_neg (by omega)]
  · have e' : (sumT N L R i).l = sumDim (L i).l (R i).l := by
      dsimp only at h2
      rw [sumT, siteSum]
      split_ifs <;> first | rfl | omega
    dsimp only
    rw [e']
    exact sumDim_pos _ _
  · dsimp only at h2 ⊢
    rw [c.site i h1 h2]
    exact hd i h1 h2

/-! ## Lengths -/

theorem mink {ι : Type*} (S : Finset ι) (a b : ι → ℝ) :
    Real.sqrt (∑ i ∈ S, (a i + b i) ^ 2) ≤ Real.sqrt (∑ i ∈ S, a i ^ 2) + Real.sqrt (∑ i ∈ S, b i ^ 2) := by
  rw [Real.sqrt_le_left (by positivity), add_sq, Real.sq_sqrt (sum_nonneg fun i _ => sq_nonneg _), Real.sq_sqrt (sum_nonneg fun i _ => sq_nonneg _)]
  have h := Real.sum_mul_le_sqrt_mul_sqrt S a b
  simp only [add_sq, sum_add_distrib, ← mul_sum, mul_assoc]
  linarith

theorem sumCfg_mono {dd : Int → Nat} {F G : (Int → Nat) → ℝ} (h : ∀ σ, F σ ≤ G σ) : ∀ (n : Nat) (ρ : Int → Nat), sumCfg dd n F ρ ≤ sumCfg dd n G ρ
  | 0, ρ => h ρ
  | n + 1, ρ => sum_le_sum fun _ _ => sumCfg_mono h n _

theorem sumCfg_mink {dd : Int → Nat} (f g : (Int → Nat) → ℝ) (hf : ∀ σ, 0 ≤ f σ) (hg : ∀ σ, 0 ≤ g σ) : ∀ (n : Nat) (ρ : Int → Nat),
    Real.sqrt (sumCfg dd n (fun σ => (f σ + g σ) ^ 2) ρ) ≤ Real.sqrt (sumCfg dd n (fun σ => f σ ^ 2) ρ) + Real.sqrt (sumCfg dd n (fun σ => g σ ^ 2) ρ)
  | 0, ρ => by
    simp only [sumCfg]
    rw [Real.sqrt_sq (add_nonneg (hf ρ) (hg ρ)), Real.sqrt_sq (hf ρ), Real.sqrt_sq (hg ρ)]
  | n + 1, ρ => by
    have nn : ∀ (h : (Int → Nat) → ℝ) (ρ : Int → Nat), 0 ≤ sumCfg dd n (fun σ => h σ ^ 2) ρ := fun h ρ => TEvol.sumCfg_nonneg (fun _ => sq_nonneg _) n ρ
    have e : ∀ (h : (Int → Nat) → ℝ), sumCfg dd (n + 1) (fun σ => h σ ^ 2) ρ =
        ∑ s ∈ range (dd (n + 1)), Real.sqrt (sumCfg dd n (fun σ => h σ ^ 2) (Function.update ρ (n + 1) s)) ^ 2 := fun h => by
      rw [sumCfg]
      exact sum_congr rfl fun s _ => (Real.sq_sqrt (nn h _)).symm
    rw [e fun σ => f σ + g σ, e f, e g]
    refine le_trans (Real.sqrt_le_sqrt (sum_le_sum fun s _ => ?_)) (mink _ _ _)
    gcongr
    exact sumCfg_mink f g hf hg n _

theorem len_nonneg (dd : Int → Nat) (N : Nat) (φ : (Int → Nat) → 𝕜) : 0 ≤ len dd N φ := Real.sqrt_nonneg _

theorem len_add (dd : Int → Nat) (N : Nat) (φ χ : (Int → Nat) → 𝕜) : len dd N (fun σ => φ σ + χ σ) ≤ len dd N φ + len dd N χ := by
  refine le_trans (Real.sqrt_le_sqrt (sumCfg_mono (G := fun σ => (‖φ σ‖ + ‖χ σ‖) ^ 2) (fun σ => ?_) _ _)) (sumCfg_mink (fun σ => ‖φ σ‖) (fun σ => ‖χ σ‖) (fun _ => norm_nonneg _) (fun _ => norm_nonneg _) _ _)
  gcongr
  exact norm_add_le _ _

theorem len_eqv {φ χ : (Int → Nat) → 𝕜} (h : TEvol.Eqv dd N φ χ) : len dd N φ = len dd N χ := by rw [len, len, TEvol.normSq_eqv h]

theorem len_swap (φ χ : (Int → Nat) → 𝕜) : len dd N (fun σ => φ σ - χ σ) = len dd N fun σ => χ σ - φ σ := by
  rw [len, len]
  congr 1
  simp only [normSq, norm_sub_rev]

/-- The distance by way of a third wavefunction. -/
theorem len_tri (φ χ ψ : (Int → Nat) → 𝕜) : len dd N (fun σ => φ σ - ψ σ) ≤ len dd N (fun σ => φ σ - χ σ) + len dd N fun σ => χ σ - ψ σ := by
  refine le_trans (le_of_eq ?_) (len_add _ _ _ _)
  congr 1
  funext σ
  ring

theorem len_zero {φ : (Int → Nat) → 𝕜} (h : len dd N φ = 0) {σ : Int → Nat} (hσ : TEvol.Cfg dd N σ)
    (hφ : ∀ σ σ' : Int → Nat, (∀ i : Int, 1 ≤ i → i ≤ N → σ i = σ' i) → φ σ = φ σ') : φ σ = 0 := by
  rw [len, Real.sqrt_eq_zero (TEvol.normSq_nonneg _ _ _), normSq] at h
  have h' := sumCfg_zero (fun σ => sq_nonneg ‖φ σ‖) h (fun i => if 1 ≤ i ∧ i ≤ N then σ i else 0)
    (fun i h1 h2 => by rw [if_pos ⟨h1, h2⟩]; exact hσ i h1 h2) fun i hi => by rw [if_neg hi]
  rw [hφ σ (fun i => if 1 ≤ i ∧ i ≤ N then σ i else 0) fun i h1 h2 => by rw [if_pos ⟨h1, h2⟩]]
  simpa using h'

theorem sumCfg_dd {K : Type*} [AddCommMonoid K] {dd dd' : Int → Nat} (F : (Int → Nat) → K) : ∀ {n : Nat} (ρ : Int → Nat), (∀ i : Int, 1 ≤ i → i ≤ n → dd i = dd' i) →
    sumCfg dd n F ρ = sumCfg dd' n F ρ := by
  intro n
  induction n with
  | zero => intro ρ _; rfl
  | succ n ih =>
    intro ρ h
    rw [sumCfg, sumCfg, h ((n : Int) + 1) (by omega) (by push_cast; omega)]
    exact sum_congr rfl fun s _ => ih _ fun i h1 h2 => h i h1 (by push_cast; omega)

theorem normSq_dd {dd' : Int → Nat} (h : ∀ i : Int, 1 ≤ i → i ≤ N → dd i = dd' i) (φ : (Int → Nat) → 𝕜) : normSq dd N φ = normSq dd' N φ := sumCfg_dd _ _ h

/-- The part of the length which a truncation with cutoff `c` at all links can take away. -/
def rel (N : Nat) (c : ℝ) : ℝ := Real.sqrt ((N - 1 : Nat) * c)

theorem rel_nonneg (N : Nat) (c : ℝ) : 0 ≤ rel N c := Real.sqrt_nonneg _

/-! ## Two operands -/

/-- What is said about the result: a centre at site 1 and everything else right orthogonal. -/
structure Summed (N : Nat) (dd : Int → Nat) (res : MPS (Site 𝕜)) : Prop where
  len : res.N = N
  left : res.l = 0
  right : res.r = 2
  chain : Chain N dd res.t
  ro : ∀ i : Int, 2 ≤ i → i ≤ N → RO (res.t i)

theorem Summed.operand {res : MPS (Site 𝕜)} (h : Summed N dd res) : isOrtho res = true := by
  simp [isOrtho, h.left, h.right]

theorem orth_ok {T : Tools 𝕜} (hT : EigOK T) {o : Opts} (hc : 0 ≤ o.cutoff) (hm : o.maxdim = none) {psi : MPS (Site 𝕜)} (hs : State psi) (hN : psi.N = N)
    (c : Chain N dd psi.t) : ∃ res, orthogonalize T o psi = .ok res ∧ Summed N dd res ∧
      len dd N (fun σ => wave res.t N σ - wave psi.t N σ) ≤ rel N o.cutoff * len dd N (wave psi.t N) := by
  obtain ⟨res, h1, h2, _, h4⟩ := C76_cutoff_partial hT hc hm hs
  subst hN
  have e : ∀ φ : (Int → Nat) → 𝕜, normSq (fun i => (psi.t i).d) psi.N φ = normSq dd psi.N φ := normSq_dd c.site
  rw [Orthog.dist, norm2, e, e] at h4
  refine ⟨res, h1, ⟨h2.len, h2.left, h2.right, ⟨h2.chain.first, h2.chain.last, fun i a b => (h2.chain.site i a b).trans (c.site i a b), h2.chain.link⟩, h2.ro⟩, ?_⟩
  rw [len_swap, rel, len, len, ← Real.sqrt_mul (by positivity)]
  refine Real.sqrt_le_sqrt (h4.trans (le_of_eq (by ring)))

theorem add_ok {T : Tools 𝕜} (hT : EigOK T) {o : Opts} (hc : 0 ≤ o.cutoff) (hm : o.maxdim = none) (hN : 2 ≤ N) (hd : ∀ i : Int, 1 ≤ i → i ≤ N → 1 ≤ dd i)
    {L R : MPS (Site 𝕜)} (nL : L.N = N) (nR : R.N = N) (cL : Chain N dd L.t) (cR : Chain N dd R.t) :
    ∃ res, addAssumeOrth T o L R = .ok res ∧ Summed N dd res ∧
      len dd N (fun σ => wave res.t N σ - (wave L.t N σ + wave R.t N σ)) ≤ rel N o.cutoff * len dd N fun σ => wave L.t N σ + wave R.t N σ := by
  obtain ⟨res, h1, h2, h3⟩ := orth_ok hT hc hm (state_sum hN hd cL cR 0 (N + 1)) rfl (chain_sum hN cL cR)
  refine ⟨res, ?_, h2, ?_⟩
  · rw [addAssumeOrth, if_neg (by omega), if_neg (by omega), nL]
    exact h1
  · have e : TEvol.Eqv dd N (wave (sumT N L.t R.t) N) fun σ => wave L.t N σ + wave R.t N σ := fun σ hσ => wave_sum hN cL cR hσ
    rw [len_eqv e] at h3
    refine le_trans (le_of_eq (len_eqv fun σ hσ => ?_)) h3
    rw [e σ hσ]

/-- What the orthogonalization of an operand can change. -/
def delta (dd : Int → Nat) (N : Nat) (psi : MPS (Site 𝕜)) : ℝ := if isOrtho psi then 0 else rel N (1 / 10 ^ 13) * len dd N (wave psi.t N)

theorem delta_nonneg (dd : Int → Nat) (N : Nat) (psi : MPS (Site 𝕜)) : 0 ≤ delta dd N psi := by
  rw [delta]
  split_ifs
  · exact le_rfl
  · exact mul_nonneg (rel_nonneg _ _) (len_nonneg _ _ _)

theorem prepare_ok {T : Tools 𝕜} (hT : EigOK T) {psi : MPS (Site 𝕜)} (h : Operand N dd psi) : ∃ psi', prepare T psi = .ok psi' ∧ psi'.N = N ∧ Chain N dd psi'.t ∧
    len dd N (fun σ => wave psi'.t N σ - wave psi.t N σ) ≤ delta dd N psi := by
  rw [prepare, delta]
  by_cases ho : isOrtho psi = true
  · rw [if_pos ho, if_pos ho]
    refine ⟨psi, rfl, h.len, h.chain, ?_⟩
    simp only [sub_self]
    rw [show (fun _ : Int → Nat => (0 : 𝕜)) = fun σ => 0 * (0 : 𝕜) by simp, len, TEvol.normSq_mul]
    simp
  · rw [if_neg ho, if_neg ho]
    obtain ⟨psi', h1, h2, h3⟩ := orth_ok hT (o := defaults) (by rw [defaults]; positivity) rfl (h.state (by simpa using ho)) h.len h.chain
    exact ⟨psi', h1, h2.len, h2.chain, h3⟩

/-- The distance of sums. -/
theorem len_sums (a b a' b' : (Int → Nat) → 𝕜) : len dd N (fun σ => (a' σ + b' σ) - (a σ + b σ)) ≤ len dd N (fun σ => a' σ - a σ) + len dd N fun σ => b' σ - b σ := by
  refine le_trans (le_of_eq ?_) (len_add _ _ _ _)
  congr 1
  funext σ
  ring

/-- From the operands to the operands which are near to them. -/
theorem near_sum {q : ℝ} (hq : 0 ≤ q) {r a b a' b' : (Int → Nat) → 𝕜} {e : ℝ} (h : len dd N (fun σ => r σ - (a' σ + b' σ)) ≤ q * len dd N fun σ => a' σ + b' σ)
    (he : len dd N (fun σ => a' σ - a σ) + len dd N (fun σ => b' σ - b σ) ≤ e) :
    len dd N (fun σ => r σ - (a σ + b σ)) ≤ q * len dd N (fun σ => a σ + b σ) + (1 + q) * e := by
  have h1 := len_tri (dd := dd) (N := N) r (fun σ => a' σ + b' σ) fun σ => a σ + b σ
  have h2 := len_sums (dd := dd) (N := N) a b a' b'
  have h3 : len dd N (fun σ => a' σ + b' σ) ≤ len dd N (fun σ => (a' σ + b' σ) - (a σ + b σ)) + len dd N fun σ => a σ + b σ := by
    refine le_trans (le_of_eq ?_) (len_add _ _ _ _)
    congr 1
    funext σ
    ring
  nlinarith [mul_le_mul_of_nonneg_left (h3.trans (add_le_add_left (h2.trans he) _)) hq]

/-- `sum(L,R,args)` with a `Cutoff` and no `MaxDim`. Missing: one site, which ends with an error, and rounding. mps.cc:588-619, mpsalgs.cc:99-137 -/
theorem C79_two_partial {T : Tools 𝕜} (hT : EigOK T) {o : Opts} (hc : 0 ≤ o.cutoff) (hm : o.maxdim = none) (hN : 2 ≤ N) (hd : ∀ i : Int, 1 ≤ i → i ≤ N → 1 ≤ dd i)
    {L R : MPS (Site 𝕜)} (hL : Operand N dd L) (hR : Operand N dd R) :
    ∃ res, plusEq T o L R = .ok res ∧ Summed N dd res ∧
      len dd N (fun σ => wave res.t N σ - (wave L.t N σ + wave R.t N σ)) ≤
        rel N o.cutoff * len dd N (fun σ => wave L.t N σ + wave R.t N σ) + (1 + rel N o.cutoff) * (delta dd N L + delta dd N R) := by
  obtain ⟨L', l1, l2, l3, l4⟩ := prepare_ok hT hL
  obtain ⟨R', r1, r2, r3, r4⟩ := prepare_ok hT hR
  obtain ⟨res, h1, h2, h3⟩ := add_ok hT hc hm hN hd l2 r2 l3 r3
  exact ⟨res, by rw [plusEq, l1, Res.bind_ok, r1, Res.bind_ok, h1], h2, near_sum (rel_nonneg _ _) h3 (add_le_add l4 r4)⟩

/-- With a `MaxDim` and `RespectDegenerate=false`, when both operands have a centre: up to the factor `N-1` no state whose links are within `MaxDim` is closer
to the sum. -/
theorem C79_best_partial {T : Tools 𝕜} (hT : EigOK T) {o : Opts} (hc : 0 ≤ o.cutoff) {m : Int} (hm : o.maxdim = some m) (hm1 : 1 ≤ m) (hr : o.respect = false)
    (hN : 2 ≤ N) (hd : ∀ i : Int, 1 ≤ i → i ≤ N → 1 ≤ dd i) {L R : MPS (Site 𝕜)} (hL : Operand N dd L) (hR : Operand N dd R) (oL : isOrtho L = true) (oR : isOrtho R = true) :
    ∃ res, plusEq T o L R = .ok res ∧ Summed N dd res ∧ (∀ i : Int, 2 ≤ i → i ≤ N → ((res.t i).l : Int) ≤ m) ∧
      ∀ χ : Int → Site 𝕜, Chain N dd χ → (∀ i : Int, 2 ≤ i → i ≤ N → ((χ i).l : Int) ≤ m) →
        len dd N (fun σ => wave res.t N σ - (wave L.t N σ + wave R.t N σ)) ^ 2 ≤
          (N - 1 : Nat) * max (len dd N (fun σ => wave χ N σ - (wave L.t N σ + wave R.t N σ)) ^ 2) (o.cutoff * len dd N (fun σ => wave L.t N σ + wave R.t N σ) ^ 2) := by
  have c := chain_sum hN hL.chain hR.chain
  have e : TEvol.Eqv dd N (wave (sumT N L.t R.t) N) fun σ => wave L.t N σ + wave R.t N σ := fun σ hσ => wave_sum hN hL.chain hR.chain hσ
  obtain ⟨res, h1, h2, _, h4⟩ := C76_best_partial hT hc hm hm1 hr (state_sum hN hd hL.chain hR.chain 0 (N + 1))
  have e2 : ∀ φ : (Int → Nat) → 𝕜, normSq (fun i => (sumT N L.t R.t i).d) N φ = len dd N φ ^ 2 := fun φ => by
    rw [normSq_dd c.site, len, Real.sq_sqrt (TEvol.normSq_nonneg _ _ _)]
  have e3 : ∀ t : Int → Site 𝕜, len dd N (fun σ => wave (sumT N L.t R.t) N σ - wave t N σ) = len dd N fun σ => wave t N σ - (wave L.t N σ + wave R.t N σ) := fun t => by
    rw [len_swap]
    exact len_eqv fun σ hσ => by rw [e σ hσ]
  refine ⟨res, ?_, ⟨h2.len, h2.left, h2.right, ⟨h2.chain.first, h2.chain.last, fun i a b => (h2.chain.site i a b).trans (c.site i a b), h2.chain.link⟩, h2.ro⟩, h2.max m hm, fun χ hχ hl => ?_⟩
  · rw [plusEq, prepare, if_pos oL, Res.bind_ok, prepare, if_pos oR, Res.bind_ok, addAssumeOrth, if_neg (by rw [hL.len, hR.len]; simp), if_neg (by rw [hL.len]; omega), hL.len]
    exact h1
  · have h := h4 χ ⟨hχ.first, hχ.last, fun i a b => (hχ.site i a b).trans (c.site i a b).symm, hχ.link⟩ hl
    simp only [Orthog.dist, norm2] at h
    rw [e2, e2, e2, e3, e3, len_eqv e] at h
    exact h

/-! ## Any number of terms -/

/-- A state, the wavefunction which it stands for and a bound of its length. -/
structure Term (𝕜 : Type*) where
  psi : MPS (Site 𝕜)
  f : (Int → Nat) → 𝕜
  S : ℝ

/-- The error after `j` levels. -/
def err (q z : ℝ) (j : Nat) : ℝ := (1 + q) ^ j * (1 + z) - 1

structure Good (N : Nat) (dd : Int → Nat) (q z : ℝ) (j : Nat) (x : Term 𝕜) : Prop where
  op : Operand N dd x.psi
  size : len dd N x.f ≤ x.S
  near : len dd N (fun σ => wave x.psi.t N σ - x.f σ) ≤ err q z j * x.S
  start : isOrtho x.psi = false → len dd N (fun σ => wave x.psi.t N σ - x.f σ) = 0 ∧ rel N (1 / 10 ^ 13) ≤ z

theorem err_ge {q z : ℝ} (hq : 0 ≤ q) (hz : 0 ≤ z) (j : Nat) : z ≤ err q z j := by
  have : (1 : ℝ) ≤ (1 + q) ^ j := one_le_pow₀ (by linarith)
  rw [err]
  nlinarith

theorem err_succ (q z : ℝ) (j : Nat) : err q z (j + 1) = q * (1 + err q z j) + err q z j := by
  rw [err, err, pow_succ]
  ring

theorem err_mono {q z : ℝ} (hq : 0 ≤ q) (hz : 0 ≤ z) {j j' : Nat} (h : j ≤ j') : err q z j ≤ err q z j' := by
  rw [err, err]
  have := pow_le_pow_right₀ (by linarith : (1 : ℝ) ≤ 1 + q) h
  nlinarith

theorem Good.nonneg {q z : ℝ} {j : Nat} {x : Term 𝕜} (h : Good N dd q z j x) : 0 ≤ x.S := (len_nonneg _ _ _).trans h.size

theorem Good.mono {q z : ℝ} (hq : 0 ≤ q) (hz : 0 ≤ z) {j j' : Nat} (hj : j ≤ j') {x : Term 𝕜} (h : Good N dd q z j x) : Good N dd q z j' x :=
  ⟨h.op, h.size, h.near.trans (mul_le_mul_of_nonneg_right (err_mono hq hz hj) h.nonneg), h.start⟩

theorem good_prepare {T : Tools 𝕜} (hT : EigOK T) {q z : ℝ} (hq : 0 ≤ q) (hz : 0 ≤ z) {j : Nat} {x : Term 𝕜} (h : Good N dd q z j x) :
    ∃ psi', prepare T x.psi = .ok psi' ∧ psi'.N = N ∧ Chain N dd psi'.t ∧ len dd N (fun σ => wave psi'.t N σ - x.f σ) ≤ err q z j * x.S := by
  obtain ⟨psi', h1, h2, h3, h4⟩ := prepare_ok hT h.op
  refine ⟨psi', h1, h2, h3, ?_⟩
  have t := len_tri (dd := dd) (N := N) (wave psi'.t N) (wave x.psi.t N) x.f
  by_cases ho : isOrtho x.psi = true
  · rw [delta, if_pos ho] at h4
    have := h.near
    linarith
  · rw [delta, if_neg ho] at h4
    obtain ⟨s1, s2⟩ := h.start (by simpa using ho)
    have t2 : len dd N (wave x.psi.t N) ≤ len dd N (fun σ => wave x.psi.t N σ - x.f σ) + len dd N x.f := by
      refine le_trans (le_of_eq ?_) (len_add _ _ _ _)
      congr 1
      funext σ
      ring
    have t3 : len dd N (wave x.psi.t N) ≤ x.S := by linarith [h.size]
    have t4 := mul_le_mul s2 t3 (len_nonneg _ _ _) hz
    have t5 := mul_le_mul_of_nonneg_right (err_ge hq hz j) h.nonneg
    linarith

theorem good_plus {T : Tools 𝕜} (hT : EigOK T) {o : Opts} (hc : 0 ≤ o.cutoff) (hm : o.maxdim = none) (hN : 2 ≤ N) (hd : ∀ i : Int, 1 ≤ i → i ≤ N → 1 ≤ dd i)
    {z : ℝ} (hz : 0 ≤ z) {j : Nat} {x y : Term 𝕜} (hx : Good N dd (rel N o.cutoff) z j x) (hy : Good N dd (rel N o.cutoff) z j y) :
    ∃ res, plusEq T o x.psi y.psi = .ok res ∧ Summed N dd res ∧ Good N dd (rel N o.cutoff) z (j + 1) ⟨res, fun σ => x.f σ + y.f σ, x.S + y.S⟩ := by
  have hq := rel_nonneg N o.cutoff
  obtain ⟨L', l1, l2, l3, l4⟩ := good_prepare hT hq hz hx
  obtain ⟨R', r1, r2, r3, r4⟩ := good_prepare hT hq hz hy
  obtain ⟨res, h1, h2, h3⟩ := add_ok hT hc hm hN hd l2 r2 l3 r3
  have h5 := near_sum hq h3 (add_le_add l4 r4)
  have h6 : len dd N (fun σ => x.f σ + y.f σ) ≤ x.S + y.S := (len_add _ _ _ _).trans (add_le_add hx.size hy.size)
  refine ⟨res, by rw [plusEq, l1, Res.bind_ok, r1, Res.bind_ok, h1], h2, ⟨h2.len, h2.chain, fun h => by rw [h2.operand] at h; simp at h⟩, h6, ?_, fun h => by rw [h2.operand] at h; simp at h⟩
  refine h5.trans ?_
  rw [err_succ]
  nlinarith [mul_le_mul_of_nonneg_left h6 hq]

theorem good_pairs {T : Tools 𝕜} (hT : EigOK T) {o : Opts} (hc : 0 ≤ o.cutoff) (hm : o.maxdim = none) (hN : 2 ≤ N) (hd : ∀ i : Int, 1 ≤ i → i ≤ N → 1 ≤ dd i)
    {z : ℝ} (hz : 0 ≤ z) {j : Nat} : ∀ l : List (Term 𝕜), (∀ x ∈ l, Good N dd (rel N o.cutoff) z j x) →
    ∃ l' : List (Term 𝕜), pairs T o (l.map Term.psi) = .ok (l'.map Term.psi) ∧ l'.length = (l.length + 1) / 2 ∧ (∀ x ∈ l', Good N dd (rel N o.cutoff) z (j + 1) x) ∧
      (∀ σ, (l'.map fun x => x.f σ).sum = (l.map fun x => x.f σ).sum) ∧ (l'.map Term.S).sum = (l.map Term.S).sum
  | [], _ => ⟨[], rfl, by simp, by simp, fun _ => rfl, rfl⟩
  | [x], h => ⟨[x], rfl, by simp, fun y hy => (h y hy).mono (rel_nonneg _ _) hz (Nat.le_succ j), fun _ => rfl, rfl⟩
  | x :: y :: l, h => by
    obtain ⟨res, h1, _, h2⟩ := good_plus hT hc hm hN hd hz (h x (by simp)) (h y (by simp))
    obtain ⟨l', g1, g2, g3, g4, g5⟩ := good_pairs hT hc hm hN hd hz l fun x hx => h x (by simp [hx])
    refine ⟨⟨res, fun σ => x.f σ + y.f σ, x.S + y.S⟩ :: l', ?_, ?_, ?_, fun σ => ?_, ?_⟩
    · simp only [List.map_cons, pairs, h1, g1, Res.bind_ok]
    · simp only [List.length_cons, g2]
      omega
    · intro w hw
      rcases List.mem_cons.1 hw with rfl | hw
      · exact h2
      · exact g3 w hw
    · simp only [List.map_cons, List.sum_cons, g4 σ, add_assoc]
    · simp only [List.map_cons, List.sum_cons, g5, add_assoc]

theorem good_sum {T : Tools 𝕜} (hT : EigOK T) {o : Opts} (hc : 0 ≤ o.cutoff) (hm : o.maxdim = none) (hN : 2 ≤ N) (hd : ∀ i : Int, 1 ≤ i → i ≤ N → 1 ≤ dd i)
    {z : ℝ} (hz : 0 ≤ z) : ∀ (n j : Nat) (l : List (Term 𝕜)), l ≠ [] → l.length ≤ n → (∀ x ∈ l, Good N dd (rel N o.cutoff) z j x) →
    ∃ res, sumAll T o n (l.map Term.psi) = .ok res ∧ (2 ≤ l.length → Summed N dd res) ∧
      Good N dd (rel N o.cutoff) z (j + Nat.clog 2 l.length) ⟨res, fun σ => (l.map fun x => x.f σ).sum, (l.map Term.S).sum⟩ := by
  intro n
  induction n with
  | zero => intro j l hl hn; simp at hn; exact absurd hn hl
  | succ n ih =>
    intro j l hl hn h
    match l, hl with
    | [x], _ =>
      refine ⟨x.psi, by simp [sumAll], fun h => by simp at h, ?_⟩
      have := h x (by simp)
      simpa using this
    | [x, y], _ =>
      obtain ⟨res, h1, h3, h2⟩ := good_plus hT hc hm hN hd hz (h x (by simp)) (h y (by simp))
      refine ⟨res, by simpa [sumAll] using h1, fun _ => h3, ?_⟩
      have e : Nat.clog 2 2 = 1 := by decide
      simpa [e] using h2
    | x :: y :: w :: l, _ =>
      obtain ⟨l', g1, g2, g3, g4, g5⟩ := good_pairs hT hc hm hN hd hz (x :: y :: w :: l) h
      simp only [List.length_cons] at g2 hn
      have h2 : 2 ≤ l'.length := by omega
      obtain ⟨res, k1, k2, k3⟩ := ih (j + 1) l' (by rintro rfl; simp at h2) (by omega) g3
      refine ⟨res, ?_, fun _ => k2 h2, ?_⟩
      · rw [← k1]
        simp only [List.map_cons] at g1 ⊢
        rw [sumAll, g1, Res.bind_ok]
        · simp
        · simp
        · simp
      · have e : Nat.clog 2 (x :: y :: w :: l).length = Nat.clog 2 l'.length + 1 := by
          rw [Nat.clog_of_two_le (by decide) (by simp)]
          simp only [List.length_cons, g2]
          rfl
        rw [e, show j + (Nat.clog 2 l'.length + 1) = j + 1 + Nat.clog 2 l'.length by omega]
        rw [show (fun σ => ((x :: y :: w :: l).map fun x => x.f σ).sum) = fun σ => (l'.map fun x => x.f σ).sum from funext fun σ => (g4 σ).symm, ← g5]
        exact k3

/-- `sum(terms,args)` with a `Cutoff` and no `MaxDim`: the terms are added in a tree of as many levels as the logarithm of their number. `z` is 0 when all
terms have a centre. Missing: one site and rounding. mps.cc:1466-1500 -/
theorem C79_many_partial {T : Tools 𝕜} (hT : EigOK T) {o : Opts} (hc : 0 ≤ o.cutoff) (hm : o.maxdim = none) (hN : 2 ≤ N) (hd : ∀ i : Int, 1 ≤ i → i ≤ N → 1 ≤ dd i)
    {l : List (MPS (Site 𝕜))} (hl : l ≠ []) (h : ∀ psi ∈ l, Operand N dd psi) {z : ℝ} (hz : 0 ≤ z)
    (ho : ∀ psi ∈ l, isOrtho psi = false → Real.sqrt ((N - 1 : Nat) * (1 / 10 ^ 13)) ≤ z) :
    ∃ res, sumAll T o l.length l = .ok res ∧ (2 ≤ l.length → Summed N dd res) ∧
      len dd N (fun σ => wave res.t N σ - total N l σ) ≤
        ((1 + Real.sqrt ((N - 1 : Nat) * o.cutoff)) ^ Nat.clog 2 l.length * (1 + z) - 1) * (l.map fun psi => len dd N (wave psi.t N)).sum := by
  have key := good_sum hT hc hm hN hd hz l.length 0 (l.map fun psi => ⟨psi, wave psi.t N, len dd N (wave psi.t N)⟩) (by simpa using hl) (by simp) (by
    intro x hx
    obtain ⟨psi, hp, rfl⟩ := List.mem_map.1 hx
    have e0 : len dd N (fun σ => wave psi.t N σ - wave psi.t N σ) = 0 := by
      simp only [sub_self]
      rw [show (fun _ : Int → Nat => (0 : 𝕜)) = fun σ => 0 * (0 : 𝕜) by simp, len, TEvol.normSq_mul]
      simp
    refine ⟨h psi hp, le_rfl, ?_, fun h' => ⟨e0, ho psi hp h'⟩⟩
    dsimp only
    rw [e0, err]
    have := len_nonneg dd N (wave psi.t N)
    simp only [pow_zero, one_mul, add_sub_cancel_left]
    positivity)
  obtain ⟨res, h1, h2, h3⟩ := key
  refine ⟨res, ?_, ?_, ?_⟩
  · rw [← h1, List.map_map]
    congr 1
    exact (List.map_id' l).symm
  · simpa using h2
  · have := h3.near
    simp only [List.map_map, List.length_map, zero_add] at this
    exact this

theorem total_congr (N : Nat) (l : List (MPS (Site 𝕜))) {σ σ' : Int → Nat} (h : ∀ i : Int, 1 ≤ i → i ≤ N → σ i = σ' i) : total N l σ = total N l σ' := by
  rw [total, total]
  congr 1
  refine List.map_congr_left fun psi _ => ?_
  rw [wave, wave, TEvol.amp_congr fun i h1 h2 => ⟨rfl, h i h1 h2⟩]

/-- With cutoff 0 and terms which have a centre the sum is exact. -/
theorem C79_exact_partial {T : Tools 𝕜} (hT : EigOK T) {o : Opts} (hc : o.cutoff = 0) (hm : o.maxdim = none) (hN : 2 ≤ N) (hd : ∀ i : Int, 1 ≤ i → i ≤ N → 1 ≤ dd i)
    {l : List (MPS (Site 𝕜))} (hl : l ≠ []) (h : ∀ psi ∈ l, Operand N dd psi) (ho : ∀ psi ∈ l, isOrtho psi = true) :
    ∃ res, sumAll T o l.length l = .ok res ∧ ∀ σ, TEvol.Cfg dd N σ → wave res.t N σ = total N l σ := by
  obtain ⟨res, h1, _, h2⟩ := C79_many_partial hT hc.ge hm hN hd hl h le_rfl fun psi hp h' => by rw [ho psi hp] at h'; simp at h'
  refine ⟨res, h1, fun σ hσ => ?_⟩
  rw [hc] at h2
  have h3 := le_antisymm (h2.trans (by simp)) (len_nonneg _ _ _)
  refine sub_eq_zero.1 (len_zero h3 hσ fun σ σ' h => ?_)
  rw [total_congr N l h, wave, wave, TEvol.amp_congr fun i h1 h2 => ⟨rfl, h i h1 h2⟩]

/-- With one site there is always an error. -/
theorem C79_one_site_counterexample (T : Tools 𝕜) (o : Opts) {L R : MPS (Site 𝕜)} (hL : L.N = 1) (hR : R.N = 1) : plusEq T o L R = .throw := by
  rw [plusEq, prepare, prepare, C76_one_site_counterexample T defaults hL, C76_one_site_counterexample T defaults hR]
  split_ifs <;> simp [Res.bind, addAssumeOrth, hL, hR]

/-! ## The cutoff of the operands -/

/-- The eigenvectors. -/
theorem eig_vec {T : Tools 𝕜} (hT : EigOK T) {d r : Nat} {H : Nat → Nat → Nat → Nat → 𝕜}
    (hh : ∀ s < d, ∀ b < r, ∀ s' < d, ∀ b' < r, H s b s' b' = (starRingEnd 𝕜) (H s' b' s b)) {m : Nat} (hm : m < d * r) {s' b' : Nat} (hs' : s' < d) (hb' : b' < r) :
    ∑ s ∈ range d, ∑ b ∈ range r, (T.eig d r H).2 s b m * H s b s' b' = (((T.eig d r H).1.getD m 0 : ℝ) : 𝕜) * (T.eig d r H).2 s' b' m := by
  have he := hT.eig d r H hh
  have ho := hT.ortho d r H
  generalize T.eig d r H = q at *
  obtain ⟨D, U⟩ := q
  dsimp only at *
  have e2 : ∑ s ∈ range d, ∑ b ∈ range r, U s b m * H s b s' b' =
      ∑ k ∈ range (d * r), (∑ s ∈ range d, ∑ b ∈ range r, (starRingEnd 𝕜) (U s b k) * U s b m) * (((D.getD k 0 : ℝ) : 𝕜) * U s' b' k) := by
    refine Eq.trans (sum_congr rfl fun s hs => sum_congr rfl fun b hb => by
      rw [he s (by simpa using hs) b (by simpa using hb) s' hs' b' hb', mul_sum]) ?_
    refine Eq.trans (sum_congr rfl fun s _ => sum_comm) ?_
    rw [sum_comm]
    refine sum_congr rfl fun k _ => ?_
    rw [sum_mul]
    refine sum_congr rfl fun s _ => ?_
    rw [sum_mul]
    exact sum_congr rfl fun b _ => by ring
  rw [e2, sum_eq_single m]
  · rw [ho m hm m hm, if_pos rfl, one_mul]
  · intro k hk hne
    rw [ho k (by simpa using hk) m hm, if_neg hne, zero_mul]
  · intro h; exact absurd (by simpa using hm) h

/-- The weights of a state of two sites with weights 1 and `x`. -/
theorem eig_two {T : Tools 𝕜} (hT : EigOK T) {x : ℝ} (hx : x < 1) {H : Nat → Nat → Nat → Nat → 𝕜}
    (h : ∀ s < 2, ∀ s' < 2, H s 0 s' 0 = if s = s' then ((if s = 0 then 1 else x : ℝ) : 𝕜) else 0) : (T.eig 2 1 H).1 = [1, x] := by
  have hh : ∀ s < 2, ∀ b < 1, ∀ s' < 2, ∀ b' < 1, H s b s' b' = (starRingEnd 𝕜) (H s' b' s b) := by
    intro s hs b hb s' hs' b' hb'
    obtain rfl : b = 0 := by omega
    obtain rfl : b' = 0 := by omega
    rw [h s hs s' hs', h s' hs' s hs]
    by_cases e : s = s'
    · subst e; simp
    · rw [if_neg e, if_neg (Ne.symm e)]; simp
  have hv := fun m (hm : m < 2 * 1) s (hs : s < 2) => eig_vec hT hh (m := m) hm (s' := s) (b' := 0) hs (by decide)
  have ho := hT.ortho 2 1 H
  have hl := hT.len 2 1 H
  have hdesc := hT.desc 2 1 H
  generalize T.eig 2 1 H = q at *
  obtain ⟨D, U⟩ := q
  match D, hl with
  | [a, b], _ =>
    have hab : b ≤ a := by simpa [Decomp.Desc] using hdesc
    have v00 := hv 0 (by decide) 0 (by decide)
    have v01 := hv 0 (by decide) 1 (by decide)
    have v10 := hv 1 (by decide) 0 (by decide)
    have v11 := hv 1 (by decide) 1 (by decide)
    have o00 := ho 0 (by decide) 0 (by decide)
    have o01 := ho 0 (by decide) 1 (by decide)
    have o11 := ho 1 (by decide) 1 (by decide)
    simp [sum_range_succ, h] at v00 v01 v10 v11 o00 o01 o11
    have hx' : (x : 𝕜) ≠ 1 := by exact_mod_cast hx.ne
    have key : ∀ (c : ℝ) (u v : 𝕜), u = (c : 𝕜) * u → v * (x : 𝕜) = (c : 𝕜) * v → (starRingEnd 𝕜) u * u + (starRingEnd 𝕜) v * v = 1 →
        (c = 1 ∧ v = 0 ∧ u ≠ 0) ∨ (c = x ∧ u = 0 ∧ v ≠ 0) := by
      intro c u v h1 h2 h3
      by_cases hu : u = 0
      · have hv : v ≠ 0 := by
          rintro rfl
          simp [hu] at h3
        refine Or.inr ⟨?_, hu, hv⟩
        have : (x : 𝕜) = c := mul_right_cancel₀ hv (by rw [← h2, mul_comm])
        exact_mod_cast this.symm
      · have hc : (c : 𝕜) = 1 := mul_right_cancel₀ hu (by rw [← h1, one_mul])
        refine Or.inl ⟨by exact_mod_cast hc, ?_, hu⟩
        by_contra hv
        rw [hc, mul_comm] at h2
        exact hx' (mul_right_cancel₀ hv h2)
    rcases key a _ _ v00 v01 o00 with ⟨a1, a2, a3⟩ | ⟨a1, a2, a3⟩ <;> rcases key b _ _ v10 v11 o11 with ⟨b1, b2, b3⟩ | ⟨b1, b2, b3⟩
    · simp [a2, b2, a3, b3] at o01
    · rw [a1, b1]
    · linarith
    · simp [a2, b2, a3, b3] at o01

/-- A state of two sites with weights 1 and `1E-14`. -/
def tiny (i : Int) : Site 𝕜 :=
  if i = 1 then ⟨1, 2, 2, fun _ s c => if s = c ∧ s < 2 then 1 else 0⟩ else ⟨2, 2, 1, fun a s _ => if a = s ∧ s < 2 then (if s = 0 then 1 else 1 / 10 ^ 7) else 0⟩

theorem truncate_tiny (eps : ℝ) : ∃ out, Decomp.truncate eps ⟨2, 1, 1 / 10 ^ 13, false, true, true⟩ [1, 1 / 10 ^ 14] = .ok out ∧ out.P.length = 1 := by
  have h1 : Decomp.zeroNeg (([1, 1 / 10 ^ 14] : List ℝ).map (· / 1)) = [1, 1 / 10 ^ 14] := by
    simp [Decomp.zeroNeg, Decomp.zeroFront]
  simp only [Decomp.truncate, if_neg one_ne_zero, h1]
  have h2 : Decomp.cut ⟨2, 1, 1 / 10 ^ 13, false, true, true⟩ [1, 1 / 10 ^ 14] (1 / 10 ^ 13 : ℝ) = .ok (1, (1 / 10 ^ 14) / (1 + 1 / 10 ^ 14)) := by
    norm_num [Decomp.cut, Decomp.maxLoop, Decomp.cutLoop, Decomp.rd, Res.bind]
  have h3 : Decomp.degenAbove (1 : ℝ) (1 / 1000) [1 / 10 ^ 14] = 0 := by
    rw [Decomp.degenAbove, if_neg (by norm_num [abs_of_neg])]
  rw [show (if (false || !true) = true then (1 / 10 ^ 13 : ℝ) / 1 else 1 / 10 ^ 13) = 1 / 10 ^ 13 from if_neg (by simp), h2, Res.bind_ok]
  have h4 : Decomp.rd ([1, 1 / 10 ^ 14] : List ℝ) (1 - 1) = .ok 1 := rfl
  rw [h4, Res.bind_ok, if_neg one_ne_zero]
  rw [show Decomp.degenBelow ([1, 1 / 10 ^ 14] : List ℝ) 1 (1 / 1000) (1 - 1) 1 = .ok 1 from rfl, Res.bind_ok]
  rw [show List.drop 1 ([1, 1 / 10 ^ 14] : List ℝ) = [1 / 10 ^ 14] from rfl, h3]
  exact ⟨_, rfl, by simp⟩

theorem tiny_state : State (⟨2, tiny, 0, 3⟩ : MPS (Site 𝕜)) := by
  refine ⟨le_rfl, ⟨by simp [tiny], by simp [tiny], fun _ _ _ => rfl, ?_⟩, ?_, ?_, ?_⟩
  · intro i h1 h2
    dsimp only at h2
    obtain rfl : i = 1 := by push_cast at h2; omega
    simp [tiny]
  · intro i a s b h
    simp only [tiny] at *
    split_ifs at * <;> simp_all <;> omega
  · intro i h1 h2
    simp only [tiny]
    split_ifs <;> simp
  · intro i h1 h2
    simp only [tiny]
    split_ifs <;> simp

theorem tiny_chain : Chain 2 (fun _ => 2) (tiny (𝕜 := 𝕜)) := by
  have := (tiny_state (𝕜 := 𝕜)).chain
  exact ⟨this.first, this.last, fun i _ _ => by rw [tiny]; split_ifs <;> rfl, this.link⟩

theorem tiny_orth {T : Tools 𝕜} (hT : EigOK T) : ∃ psi', orthogonalize T defaults ⟨2, tiny, 0, 3⟩ = .ok psi' ∧ (psi'.t 2).l = 1 := by
  have hD := eig_two hT (x := 1 / 10 ^ 14) (by norm_num) (H := rho (tiny (𝕜 := 𝕜) 2).l (envs tiny 1) (tiny 2).A) (by
    intro s hs s' hs'
    interval_cases s <;> interval_cases s' <;> simp [rho, envs, envStep, tiny, sum_range_succ]
    norm_num [map_ofNat])
  obtain ⟨out, h1, h2⟩ := truncate_tiny T.eps
  have hq : diagPosSemiDef T defaults.cutoff (maxAt defaults (tiny (𝕜 := 𝕜)) 2 2) defaults.respect 2 1 (rho (tiny (𝕜 := 𝕜) 2).l (envs tiny 1) (tiny 2).A) =
      .ok (1, (T.eig 2 1 (rho (tiny (𝕜 := 𝕜) 2).l (envs tiny 1) (tiny 2).A)).2) := by
    rw [show maxAt defaults (tiny (𝕜 := 𝕜)) 2 2 = none from rfl, diagPosSemiDef, if_neg (by decide)]
    dsimp only
    rw [hD, Option.getD_none, show (((2 * 1 : Nat)) : Int) = 2 from rfl, show defaults.cutoff = 1 / 10 ^ 13 from rfl, show defaults.respect = true from rfl, h1, Res.bind_ok, h2]
    rfl
  have e : sweep T defaults (tiny (𝕜 := 𝕜)) 2 1 (tiny 2).A 1 tiny = (diagPosSemiDef T defaults.cutoff (maxAt defaults (tiny (𝕜 := 𝕜)) 2 2) defaults.respect 2 1
      (rho (tiny (𝕜 := 𝕜) 2).l (envs tiny 1) (tiny 2).A)).bind fun q =>
        .ok (Function.update (Function.update tiny 2 ⟨q.1, 2, 1, fun m s b => (starRingEnd 𝕜) (q.2 s b m)⟩) 1
          ⟨1, 2, q.1, nextO 2 1 (tiny (𝕜 := 𝕜) 2).l (tiny 2).A q.2 (tiny 1)⟩) := rfl
  rw [hq, Res.bind_ok] at e
  refine ⟨⟨2, Function.update (Function.update tiny 2 ⟨1, 2, 1, fun m s b => (starRingEnd 𝕜) ((T.eig 2 1 (rho (tiny (𝕜 := 𝕜) 2).l (envs tiny 1) (tiny 2).A)).2 s b m)⟩) 1
    ⟨1, 2, 1, nextO 2 1 (tiny (𝕜 := 𝕜) 2).l (tiny 2).A (T.eig 2 1 (rho (tiny (𝕜 := 𝕜) 2).l (envs tiny 1) (tiny 2).A)).2 (tiny 1)⟩, 0, 2⟩, ?_, ?_⟩
  · rw [Orthog.orthogonalize, if_neg (by simp)]
    exact congrArg (fun x => Res.bind x _) e
  · dsimp only
    rw [Function.update_of_ne (by decide), Function.update_self]

/-- The arguments are not those of the orthogonalization of an operand: with `Cutoff` 0 the sum of a state which has no centre and any other is not exact. -/
theorem C79_cutoff_counterexample {T : Tools 𝕜} (hT : EigOK T) {o : Opts} (hc : o.cutoff = 0) (hm : o.maxdim = none) {R : MPS (Site 𝕜)} (hR : Operand 2 (fun _ => 2) R)
    (oR : isOrtho R = true) : Operand 2 (fun _ => 2) (⟨2, tiny, 0, 3⟩ : MPS (Site 𝕜)) ∧ ∃ res, plusEq T o ⟨2, tiny, 0, 3⟩ R = .ok res ∧
      ∃ σ, TEvol.Cfg (fun _ => 2) 2 σ ∧ wave res.t 2 σ ≠ wave tiny 2 σ + wave R.t 2 σ := by
  refine ⟨⟨rfl, tiny_chain, fun _ => tiny_state⟩, ?_⟩
  obtain ⟨psi', h1, h2⟩ := tiny_orth hT
  obtain ⟨psi'', h3, h4, _⟩ := orth_ok hT (o := defaults) (by rw [defaults]; positivity) rfl (tiny_state (𝕜 := 𝕜)) rfl tiny_chain
  obtain rfl : psi' = psi'' := by rw [h1] at h3; injection h3
  obtain ⟨res, g1, g2, g3⟩ := add_ok hT hc.ge hm le_rfl (fun _ _ _ => by decide) h4.len hR.len h4.chain hR.chain
  refine ⟨res, ?_, ?_⟩
  · rw [plusEq, prepare, if_neg (by simp [isOrtho]), h1, Res.bind_ok, prepare, if_pos oR, Res.bind_ok, g1]
  · have e : ∀ σ, TEvol.Cfg (fun _ => 2) 2 σ → wave res.t 2 σ = wave psi'.t 2 σ + wave R.t 2 σ := by
      intro σ hσ
      refine sub_eq_zero.1 (len_zero (le_antisymm (g3.trans (by simp [rel, hc])) (len_nonneg _ _ _)) hσ fun σ σ' h => ?_)
      simp only [wave]
      rw [TEvol.amp_congr fun i h1 h2 => ⟨rfl, h i h1 h2⟩, TEvol.amp_congr fun i h1 h2 => ⟨rfl, h i h1 h2⟩, TEvol.amp_congr (t := R.t) fun i h1 h2 => ⟨rfl, h i h1 h2⟩]
    by_contra hno
    push Not at hno
    have w : ∀ a < 2, ∀ b < 2, wave psi'.t 2 (fun i => if i = 1 then a else b) = wave (tiny (𝕜 := 𝕜)) 2 (fun i => if i = 1 then a else b) := by
      intro a ha b hb
      have hσ : TEvol.Cfg (fun _ => 2) 2 (fun i : Int => if i = 1 then a else b) := fun i _ _ => by dsimp only; split_ifs <;> assumption
      have := hno _ hσ
      rw [e _ hσ] at this
      exact add_right_cancel this
    have p : ∀ a b, wave psi'.t 2 (fun i => if i = 1 then a else b) = (psi'.t 1).A 0 a 0 * (psi'.t 2).A 0 b 0 := by
      intro a b
      simp [wave, amp, h2, h4.chain.first]
    have w00 := w 0 (by decide) 0 (by decide)
    have w01 := w 0 (by decide) 1 (by decide)
    have w11 := w 1 (by decide) 1 (by decide)
    rw [p] at w00 w01 w11
    simp [wave, amp, tiny, sum_range_succ] at w00 w01 w11
    rcases w01 with h | h
    · rw [h] at w00; simp at w00
    · rw [h, mul_zero] at w11
      have : ((10 : 𝕜) ^ 7)⁻¹ ≠ 0 := by norm_num
      exact this w11.symm

/-! ## Examples -/

theorem pair_operand {N : Nat} (hN : 2 ≤ N) (x y : Int) : Operand N (fun _ => 2) (⟨N, pair N, x, y⟩ : MPS (Site 𝕜)) := by
  have h := pair_state (𝕜 := 𝕜) hN
  refine ⟨rfl, ⟨h.chain.first, h.chain.last, fun i _ _ => ?_, h.chain.link⟩, fun _ => ⟨h.len, h.chain, h.supp, h.link, h.site⟩⟩
  simp only [pair]
  split_ifs <;> rfl

/-- Three terms, of which one has no centre. -/
example : ∃ (T : Tools ℂ) (res : MPS (Site ℂ)), sumAll T ⟨1 / 10 ^ 10, none, true, false⟩ 3 [⟨5, pair 5, 0, 6⟩, ⟨5, pair 5, 0, 2⟩, ⟨5, pair 5, 4, 6⟩] = .ok res ∧ Summed 5 (fun _ => 2) res := by
  obtain ⟨T, hT⟩ := ApplyMPO.exists_tools (𝕜 := ℂ)
  obtain ⟨res, h1, h2, _⟩ := C79_many_partial hT (N := 5) (dd := fun _ => 2) (o := ⟨1 / 10 ^ 10, none, true, false⟩) (by positivity) rfl (by decide) (fun _ _ _ => by decide)
    (l := [⟨5, pair 5, 0, 6⟩, ⟨5, pair 5, 0, 2⟩, ⟨5, pair 5, 4, 6⟩]) (by simp) (by simp [pair_operand]) (Real.sqrt_nonneg ((5 - 1 : Nat) * (1 / 10 ^ 13))) (fun _ _ _ => le_rfl)
  exact ⟨T, res, h1, h2 (by decide)⟩

example : ∃ (T : Tools ℂ) (res : MPS (Site ℂ)), sumAll T ⟨0, none, true, false⟩ 3 [⟨5, pair 5, 2, 4⟩, ⟨5, pair 5, 0, 2⟩, ⟨5, pair 5, 4, 6⟩] = .ok res ∧
    ∀ σ, TEvol.Cfg (fun _ => 2) 5 σ → wave res.t 5 σ = 3 * wave (pair 5) 5 σ := by
  obtain ⟨T, hT⟩ := ApplyMPO.exists_tools (𝕜 := ℂ)
  obtain ⟨res, h1, h2⟩ := C79_exact_partial hT (N := 5) (dd := fun _ => 2) (o := ⟨0, none, true, false⟩) rfl rfl (by decide) (fun _ _ _ => by decide)
    (l := [⟨5, pair 5, 2, 4⟩, ⟨5, pair 5, 0, 2⟩, ⟨5, pair 5, 4, 6⟩]) (by simp) (by simp [pair_operand]) (by simp [isOrtho])
  refine ⟨T, res, h1, fun σ hσ => ?_⟩
  rw [h2 σ hσ]
  simp [total]
  ring

example : ∃ (T : Tools ℂ) (res : MPS (Site ℂ)), plusEq T ⟨0, some 2, false, false⟩ ⟨5, pair 5, 2, 4⟩ ⟨5, pair 5, 0, 2⟩ = .ok res := by
  obtain ⟨T, hT⟩ := ApplyMPO.exists_tools (𝕜 := ℂ)
  obtain ⟨res, h1, _⟩ := C79_best_partial hT (N := 5) (dd := fun _ => 2) (o := ⟨0, some 2, false, false⟩) le_rfl rfl (by decide) rfl (by decide) (fun _ _ _ => by decide)
    (pair_operand (by decide) 2 4) (pair_operand (by decide) 0 2) rfl rfl
  exact ⟨T, res, h1⟩

end Verif.SumNum
