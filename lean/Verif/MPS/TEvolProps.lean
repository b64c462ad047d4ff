import Verif.MPS.TEvol

/-! # Amplitudes under gates and gauge changes -/

noncomputable section

namespace Verif.TEvol

open Finset Verif.Limits Verif.DmrgNum

variable {𝕜 : Type*} [RCLike 𝕜]

theorem amp_congr {t t' : Int → Site 𝕜} {σ σ' : Int → Nat} : ∀ {n : Nat}, (∀ i : Int, 1 ≤ i → i ≤ n → t i = t' i ∧ σ i = σ' i) → amp t n σ = amp t' n σ' := by
  intro n
  induction n with
  | zero => intro _; rfl
  | succ n ih =>
    intro h
    funext c
    have := h ((n : Int) + 1) (by omega) (by push_cast; omega)
    rw [amp, amp, this.1, this.2, ih fun i h1 h2 => h i h1 (by push_cast; omega)]

/-- If the amplitudes of the first `m` sites are combinations, then so are those of more sites. -/
theorem amp_lin {ι : Type*} (S : Finset ι) (x : ι → 𝕜) {t t' : Int → Site 𝕜} {σ : Int → Nat} {τ : ι → Int → Nat} {N : Nat} {dd : Int → Nat} (c : Chain N dd t)
    {m : Nat} (hm : 1 ≤ m) (h : ∀ k < (t m).r, amp t' m σ k = ∑ i ∈ S, x i * amp t m (τ i) k) (ht : ∀ i : Int, (m : Int) < i → t' i = t i)
    (hτ : ∀ i : Int, (m : Int) < i → ∀ j ∈ S, τ j i = σ i) : ∀ n : Nat, m + n ≤ N → ∀ k < (t (m + n : Nat)).r, amp t' (m + n) σ k = ∑ i ∈ S, x i * amp t (m + n) (τ i) k := by
  intro n
  induction n with
  | zero => intro _ k hk; exact h k (by simpa using hk)
  | succ n ih =>
    intro hn k hk
    have hl := c.link ((m + n : Nat) : Int) (by push_cast; omega) (by push_cast; omega)
    rw [show m + (n + 1) = (m + n) + 1 by ring, amp]
    rw [ht _ (by push_cast; omega)]
    have e : ∀ a ∈ range (t ((m + n : Nat) + 1)).l, amp t' (m + n) σ a = ∑ i ∈ S, x i * amp t (m + n) (τ i) a := fun a ha =>
      ih (by omega) a (by rw [hl]; simpa using ha)
    rw [sum_congr rfl fun a ha => by rw [e a ha]]
    simp only [amp]
    simp only [sum_mul, mul_sum]
    rw [sum_comm]
    refine sum_congr rfl fun i hi => sum_congr rfl fun a _ => ?_
    rw [hτ _ (by push_cast; omega) i hi]
    ring

theorem amp_two (t : Int → Site 𝕜) (n : Nat) (σ : Int → Nat) (h : (t ((n : Int) + 1)).r = (t ((n : Int) + 1 + 1)).l) (k : Nat) :
    amp t (n + 2) σ k = ∑ a ∈ range (t ((n : Int) + 1)).l, amp t n σ a * bval (t ((n : Int) + 1)) (t ((n : Int) + 1 + 1)) a (σ ((n : Int) + 1)) (σ ((n : Int) + 1 + 1)) k := by
  rw [amp]
  push_cast
  rw [← h]
  simp only [amp, bval, sum_mul, mul_sum]
  rw [sum_comm]
  refine sum_congr rfl fun a _ => sum_congr rfl fun m _ => ?_
  ring

/-- What a gate does to the amplitudes. -/
theorem wave_gate {N : Nat} {dd : Int → Nat} {t : Int → Site 𝕜} (c : Chain N dd t) (g : Gate 𝕜) (h1 : 1 ≤ g.i1) (h2 : g.i1 < N) {p : Site 𝕜 × Site 𝕜} (f : Fit t g.i1 p)
    (e : ∀ i : Pl (t g.i1).l (t g.i1).d (t (g.i1 + 1)).d (t (g.i1 + 1)).r, bval p.1 p.2 i.1 i.2.1 i.2.2.1 i.2.2.2 = applied g (t g.i1) (t (g.i1 + 1)) i)
    {σ : Int → Nat} (hσ : Cfg dd N σ) : wave (put2 t g.i1 p) N σ = act dd g (wave t N) σ := by
  obtain ⟨b, b', G⟩ := g
  dsimp only at *
  obtain ⟨n, rfl⟩ : ∃ n : Nat, b = (n : Int) + 1 := ⟨(b - 1).toNat, by omega⟩
  obtain ⟨j, hj⟩ : ∃ j, n + 2 + j = N := ⟨N - (n + 2), by omega⟩
  have hl := c.link ((n : Int) + 1) h1 h2
  have d1 := c.site ((n : Int) + 1) h1 (by omega)
  have d2 := c.site ((n : Int) + 1 + 1) (by omega) (by omega)
  let τ : Nat × Nat → Int → Nat := fun s => Function.update (Function.update σ ((n : Int) + 1) s.1) ((n : Int) + 1 + 1) s.2
  have key : ∀ k < (t ((n : Int) + 1 + 1)).r, amp (put2 t ((n : Int) + 1) p) (n + 2) σ k =
      ∑ s ∈ range (dd ((n : Int) + 1)) ×ˢ range (dd ((n : Int) + 1 + 1)), G (σ ((n : Int) + 1)) (σ ((n : Int) + 1 + 1)) s.1 s.2 * amp t (n + 2) (τ s) k := by
    intro k hk
    rw [amp_two _ n σ (by rw [put2_fst, put2_snd, f.m]), put2_fst, put2_snd, f.l]
    have ea : amp (put2 t ((n : Int) + 1) p) n σ = amp t n σ := amp_congr fun i i1 i2 => ⟨put2_ne _ _ (by omega) (by omega), rfl⟩
    rw [ea]
    have eb : ∀ a ∈ range (t ((n : Int) + 1)).l, bval p.1 p.2 a (σ ((n : Int) + 1)) (σ ((n : Int) + 1 + 1)) k =
        ∑ s ∈ range (dd ((n : Int) + 1)) ×ˢ range (dd ((n : Int) + 1 + 1)), bval (t ((n : Int) + 1)) (t ((n : Int) + 1 + 1)) a s.1 s.2 k * G (σ ((n : Int) + 1)) (σ ((n : Int) + 1 + 1)) s.1 s.2 := by
      intro a ha
      have := e (⟨a, by simpa using ha⟩, ⟨σ ((n : Int) + 1), by rw [d1]; exact hσ _ h1 (by omega)⟩, ⟨σ ((n : Int) + 1 + 1), by rw [d2]; exact hσ _ (by omega) (by omega)⟩, ⟨k, hk⟩)
      refine this.trans ?_
      change ∑ s₁ ∈ range (t ((n : Int) + 1)).d, ∑ s₂ ∈ range (t ((n : Int) + 1 + 1)).d, bval (t ((n : Int) + 1)) (t ((n : Int) + 1 + 1)) a s₁ s₂ k * G (σ ((n : Int) + 1)) (σ ((n : Int) + 1 + 1)) s₁ s₂ = _
      rw [sum_product, d1, d2]
    rw [sum_congr rfl fun a ha => by rw [eb a ha, mul_sum], sum_comm]
    refine sum_congr rfl fun s _ => ?_
    rw [amp_two t n (τ s) hl, mul_sum]
    have et : amp t n (τ s) = amp t n σ := amp_congr fun i i1 i2 => ⟨rfl, by
      simp only [τ]; rw [Function.update_of_ne (by omega), Function.update_of_ne (by omega)]⟩
    rw [et]
    have t1 : τ s ((n : Int) + 1) = s.1 := by simp only [τ]; rw [Function.update_of_ne (by omega), Function.update_self]
    have t2 : τ s ((n : Int) + 1 + 1) = s.2 := by simp only [τ]; rw [Function.update_self]
    rw [t1, t2]
    exact sum_congr rfl fun a _ => by ring
  have := amp_lin _ _ c (m := n + 2) (by omega) (σ := σ) (τ := τ) (t' := put2 t ((n : Int) + 1) p) (by
    push_cast; rw [show (n : Int) + 2 = n + 1 + 1 by ring]; exact key) (fun i hi => put2_ne _ _ (by push_cast at hi; omega) (by push_cast at hi; omega))
    (fun i hi s _ => by simp only [τ]; push_cast at hi; rw [Function.update_of_ne (by omega), Function.update_of_ne (by omega)]) j (by omega) 0
      (by rw [hj, c.last]; exact Nat.zero_lt_one)
  rw [hj] at this
  rw [wave, this, sum_product]
  rfl

theorem wave_same {N : Nat} {dd : Int → Nat} {t : Int → Site 𝕜} (c : Chain N dd t) {b : Int} (h1 : 1 ≤ b) (h2 : b < N) {p : Site 𝕜 × Site 𝕜}
    (hp : Same (t b) (t (b + 1)) p) {σ : Int → Nat} (hσ : Cfg dd N σ) : wave (put2 t b p) N σ = wave t N σ := by
  have d1 := c.site b h1 (by omega)
  have d2 := c.site (b + 1) (by omega) (by omega)
  have := wave_gate c (⟨b, b + 1, fun a b c d => if a = c ∧ b = d then 1 else 0⟩ : Gate 𝕜) h1 h2 (p := p) ⟨hp.l, hp.d₁, hp.m, hp.d₂, hp.r⟩ (by
    intro i
    rw [hp.val _ i.1.2 _ i.2.1.2 _ i.2.2.1.2 _ i.2.2.2.2, applied]
    dsimp only
    rw [sum_eq_single (i.2.1 : Nat), sum_eq_single (i.2.2.1 : Nat)]
    · simp
    · intro s _ hs; rw [if_neg (by rintro ⟨-, h⟩; exact hs h.symm), mul_zero]
    · intro h; exact absurd (mem_range.2 i.2.2.1.2) h
    · intro s _ hs
      refine sum_eq_zero fun s' _ => ?_
      rw [if_neg (by rintro ⟨h, -⟩; exact hs h.symm), mul_zero]
    · intro h; exact absurd (mem_range.2 i.2.1.2) h) hσ
  rw [this, act]
  dsimp only
  rw [sum_eq_single (σ b), sum_eq_single (σ (b + 1))]
  · simp
  · intro s _ hs; rw [if_neg (by rintro ⟨-, h⟩; exact hs h.symm), zero_mul]
  · intro h; exact absurd (mem_range.2 (hσ _ (by omega) (by omega))) h
  · intro s _ hs
    refine sum_eq_zero fun s' _ => ?_
    rw [if_neg (by rintro ⟨h, -⟩; exact hs h.symm), zero_mul]
  · intro h; exact absurd (mem_range.2 (hσ _ h1 (by omega))) h

/-- Equal wavefunctions. -/
def Eqv (dd : Int → Nat) (N : Nat) (φ φ' : (Int → Nat) → 𝕜) : Prop := ∀ σ, Cfg dd N σ → φ σ = φ' σ

theorem Cfg.update2 {dd : Int → Nat} {N : Nat} {σ : Int → Nat} (h : Cfg dd N σ) {b : Int} {s₁ s₂ : Nat} (h1 : s₁ < dd b) (h2 : s₂ < dd (b + 1)) :
    Cfg dd N (Function.update (Function.update σ b s₁) (b + 1) s₂) := by
  intro i i1 i2
  by_cases e : i = b + 1
  · subst e; rwa [Function.update_self]
  · rw [Function.update_of_ne e]
    by_cases e' : i = b
    · subst e'; rwa [Function.update_self]
    · rw [Function.update_of_ne e']; exact h i i1 i2

theorem act_eqv {dd : Int → Nat} {N : Nat} (g : Gate 𝕜) {φ φ' : (Int → Nat) → 𝕜} (h : Eqv dd N φ φ') : Eqv dd N (act dd g φ) (act dd g φ') := by
  intro σ hσ
  refine sum_congr rfl fun s₁ h₁ => sum_congr rfl fun s₂ h₂ => ?_
  rw [h _ (hσ.update2 (by simpa using h₁) (by simpa using h₂))]

theorem actAll_eqv {dd : Int → Nat} {N : Nat} : ∀ (gs : List (Gate 𝕜)) {φ φ' : (Int → Nat) → 𝕜}, Eqv dd N φ φ' → Eqv dd N (actAll dd gs φ) (actAll dd gs φ')
  | [], _, _, h => h
  | g :: gs, _, _, h => actAll_eqv gs (act_eqv g h)

theorem evolve_eqv {dd : Int → Nat} {N : Nat} (gs : List (Gate 𝕜)) : ∀ (k : Nat) {φ φ' : (Int → Nat) → 𝕜}, Eqv dd N φ φ' → Eqv dd N (evolve dd gs k φ) (evolve dd gs k φ')
  | 0, _, _, h => h
  | k + 1, _, _, h => evolve_eqv gs k (actAll_eqv gs h)

theorem act_mul (dd : Int → Nat) (g : Gate 𝕜) (x : 𝕜) (φ : (Int → Nat) → 𝕜) : act dd g (fun σ => x * φ σ) = fun σ => x * act dd g φ σ := by
  funext σ
  simp only [act, mul_sum]
  exact sum_congr rfl fun s₁ _ => sum_congr rfl fun s₂ _ => by ring

theorem actAll_mul (dd : Int → Nat) : ∀ (gs : List (Gate 𝕜)) (x : 𝕜) (φ : (Int → Nat) → 𝕜), actAll dd gs (fun σ => x * φ σ) = fun σ => x * actAll dd gs φ σ
  | [], _, _ => rfl
  | g :: gs, x, φ => by
    simp only [actAll, List.foldl_cons]
    rw [act_mul]
    exact actAll_mul dd gs x _

theorem evolve_mul (dd : Int → Nat) (gs : List (Gate 𝕜)) : ∀ (k : Nat) (x : 𝕜) (φ : (Int → Nat) → 𝕜), evolve dd gs k (fun σ => x * φ σ) = fun σ => x * evolve dd gs k φ σ
  | 0, _, _ => rfl
  | k + 1, x, φ => by rw [evolve, evolve, actAll_mul, evolve_mul dd gs k]

theorem normSq_eqv {dd : Int → Nat} {N : Nat} {φ φ' : (Int → Nat) → 𝕜} (h : Eqv dd N φ φ') : normSq dd N φ = normSq dd N φ' :=
  sumCfg_congr fun σ h1 _ => by rw [h σ h1]

theorem normSq_mul (dd : Int → Nat) (N : Nat) (x : 𝕜) (φ : (Int → Nat) → 𝕜) : normSq dd N (fun σ => x * φ σ) = ‖x‖ ^ 2 * normSq dd N φ := by
  unfold normSq
  rw [← sumCfg_mul]
  exact sumCfg_congr fun σ _ _ => by rw [norm_mul, mul_pow]

theorem sumCfg_nonneg {dd : Int → Nat} {F : (Int → Nat) → ℝ} (h : ∀ σ, 0 ≤ F σ) : ∀ (n : Nat) (ρ : Int → Nat), 0 ≤ sumCfg dd n F ρ := by
  intro n
  induction n with
  | zero => intro ρ; exact h ρ
  | succ n ih => intro ρ; exact sum_nonneg fun s _ => ih _

theorem normSq_nonneg (dd : Int → Nat) (N : Nat) (φ : (Int → Nat) → 𝕜) : 0 ≤ normSq dd N φ := sumCfg_nonneg (fun _ => by positivity) _ _

/-! ## Gauge -/

/-- The norm at the centre. -/
theorem frob_center {N : Nat} {dd : Int → Nat} {t : Int → Site 𝕜} (c : Chain N dd t) {b : Int} (h1 : 1 ≤ b) (h2 : b < N) (hl : ∀ i : Int, 1 ≤ i → i < b → LO (t i))
    (hr : ∀ i : Int, b < i → i ≤ N → RO (t i)) : frob (t b) = normSq dd N (wave t N) := by
  obtain ⟨n, rfl⟩ : ∃ n : Nat, b = (n : Int) + 1 := ⟨(b - 1).toNat, by omega⟩
  have e := norm_eq c (n := n) (j := N - (n + 2)) (by omega) (fun i i1 i2 => hl i i1 (by omega)) (fun i i1 i2 => hr i (by omega) i2) (fit_self c h1 h2)
  rw [put2_self, bl_self, EuclideanSpace.norm_sq_eq] at e
  rw [e]
  have hk := c.link _ h1 h2
  have R := hr ((n : Int) + 1 + 1) (by omega) (by omega)
  generalize t ((n : Int) + 1) = A at *
  generalize t ((n : Int) + 1 + 1) = B at *
  have main : ∀ a s, ∑ s₂ : Fin B.d, ∑ k : Fin B.r, ‖∑ m ∈ range A.r, A.A a s m * B.A m s₂ k‖ ^ 2 = ∑ m ∈ range A.r, ‖A.A a s m‖ ^ 2 := by
    intro a s
    have h' : (((∑ s₂ : Fin B.d, ∑ k : Fin B.r, ‖∑ m ∈ range A.r, A.A a s m * B.A m s₂ k‖ ^ 2 : ℝ)) : 𝕜) = ((∑ m ∈ range A.r, ‖A.A a s m‖ ^ 2 : ℝ) : 𝕜) := by
      push_cast
      have e1 : ∀ (s₂ : Fin B.d) (k : Fin B.r), ((‖∑ m ∈ range A.r, A.A a s m * B.A m s₂ k‖ : ℝ) : 𝕜) ^ 2 =
          ∑ m' ∈ range A.r, ∑ m ∈ range A.r, (starRingEnd 𝕜) (A.A a s m') * A.A a s m * ((starRingEnd 𝕜) (B.A m' s₂ k) * B.A m s₂ k) := by
        intro s₂ k
        rw [← RCLike.conj_mul, map_sum, sum_mul_sum]
        refine sum_congr rfl fun m' _ => sum_congr rfl fun m _ => ?_
        rw [map_mul]; ring
      simp only [e1]
      have e2 : ∑ s₂ : Fin B.d, ∑ k : Fin B.r, ∑ m' ∈ range A.r, ∑ m ∈ range A.r, (starRingEnd 𝕜) (A.A a s m') * A.A a s m * ((starRingEnd 𝕜) (B.A m' s₂ k) * B.A m s₂ k) =
          ∑ m' ∈ range A.r, ∑ m ∈ range A.r, (starRingEnd 𝕜) (A.A a s m') * A.A a s m * ∑ k ∈ range B.r, ∑ s₂ ∈ range B.d, ((starRingEnd 𝕜) (B.A m' s₂ k) * B.A m s₂ k) := by
        rw [← sum_range (fun s₂ => ∑ k : Fin B.r, ∑ m' ∈ range A.r, ∑ m ∈ range A.r, (starRingEnd 𝕜) (A.A a s m') * A.A a s m * ((starRingEnd 𝕜) (B.A m' s₂ k) * B.A m s₂ k))]
        simp only [mul_sum]
        rw [sum_congr rfl fun s₂ _ => (sum_range (fun k => ∑ m' ∈ range A.r, ∑ m ∈ range A.r, (starRingEnd 𝕜) (A.A a s m') * A.A a s m * ((starRingEnd 𝕜) (B.A m' s₂ k) * B.A m s₂ k))).symm]
        rw [sum_comm]
        refine (sum_congr rfl fun k _ => sum_comm).trans ?_
        rw [sum_comm]
        refine sum_congr rfl fun m' _ => ?_
        refine (sum_congr rfl fun k _ => sum_comm).trans ?_
        rw [sum_comm]
      rw [e2]
      refine sum_congr rfl fun m' hm' => ?_
      rw [sum_eq_single m']
      · rw [R m' (by rw [← hk]; simpa using hm') m' (by rw [← hk]; simpa using hm'), if_pos rfl, mul_one, RCLike.conj_mul]
      · intro m hm hne
        rw [R m' (by rw [← hk]; simpa using hm') m (by rw [← hk]; simpa using hm), if_neg (Ne.symm hne), mul_zero]
      · intro h; exact absurd hm' h
    exact_mod_cast h'
  rw [Fintype.sum_prod_type]
  unfold frob
  rw [sum_range]
  refine sum_congr rfl fun a _ => ?_
  rw [Fintype.sum_prod_type, sum_range]
  refine sum_congr rfl fun s _ => ?_
  rw [Fintype.sum_prod_type]
  exact (main a s).symm

/-- `position` keeps the wavefunction. -/
theorem position_wave {dd : Int → Nat} {o : Ops (Site 𝕜)} (ho : GaugeOK o) {psi : MPS (Site 𝕜)} (hs : Sound o LO RO psi)
    (hc : Chain psi.N dd psi.t) {i : Int} (h1 : 1 ≤ i) (h2 : i ≤ psi.N) :
    ∃ psi', position o psi i = .ok psi' ∧ Sound o LO RO psi' ∧ psi'.N = psi.N ∧ psi'.l = i - 1 ∧ psi'.r = i + 1 ∧ Chain psi.N dd psi'.t ∧
      Eqv dd psi.N (wave psi'.t psi.N) (wave psi.t psi.N) := by
  have lk : ∀ a b, o.link a b = true ↔ a.r = b.l := fun a b => by rw [ho.link]; simp
  have step : ∀ (s : MPS (Site 𝕜)) (b : Int) (p : Site 𝕜 × Site 𝕜), s.N = psi.N → Chain psi.N dd s.t → 1 ≤ b → b < psi.N → Same (s.t b) (s.t (b + 1)) p →
      Chain psi.N dd (set2 s b p).t ∧ Eqv dd psi.N (wave (set2 s b p).t psi.N) (wave s.t psi.N) := by
    intro s b p _ c b1 b2 hp
    exact ⟨chain_put2 c b1 b2 ⟨hp.l, hp.d₁, hp.m, hp.d₂, hp.r⟩, fun σ hσ => wave_same c b1 b2 hp hσ⟩
  obtain ⟨s', e, hs', hN, hl, hr, hq⟩ := positionWith_spec (sL := stepL o) (sR := stepR o) (i := i)
    (Q := fun s => s.N = psi.N ∧ Chain psi.N dd s.t ∧ Eqv dd psi.N (wave s.t psi.N) (wave psi.t psi.N)) ho.factor
    (fun s h hl => stepL_eq h hl) (fun s h hl => stepR_eq h hl)
    (fun s h hl hq => by
      have hlo := h.lo
      obtain ⟨c', e1⟩ := step s (s.l + 1) (o.orthL (s.t (s.l + 1)) (s.t (s.l + 1 + 1))) hq.1 hq.2.1 (by omega) (by rw [← hq.1]; omega)
        (ho.left _ _ ((lk _ _).1 (h.linked _ (by omega) (by omega)))).1
      exact ⟨hq.1, c', fun σ hσ => (e1 σ hσ).trans (hq.2.2 σ hσ)⟩)
    (fun s h hr hq => by
      have hhi := h.hi
      obtain ⟨c', e1⟩ := step s (s.r - 2) (o.orthR (s.t (s.r - 2)) (s.t (s.r - 2 + 1))) hq.1 hq.2.1 (by omega) (by rw [← hq.1]; omega)
        (ho.right _ _ ((lk _ _).1 (h.linked _ (by omega) (by omega)))).1
      exact ⟨hq.1, c', fun σ hσ => (e1 σ hσ).trans (hq.2.2 σ hσ)⟩)
    hs h1 h2 ⟨rfl, hc, fun _ _ => rfl⟩
  exact ⟨s', e, hs', hN, hl, hr, hq.2⟩

end Verif.TEvol
