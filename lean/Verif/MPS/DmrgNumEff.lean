import Verif.MPS.DmrgNumSpec

/-! # The projected operator is the operator between states that differ in two tensors -/

noncomputable section

namespace Verif.DmrgNum

open Finset Verif.Limits

variable {𝕜 : Type*} [RCLike 𝕜]

/-- The environment as a sum over configurations. -/
theorem lv_spec (M : Mpo 𝕜) {dd : Int → Nat} {tb tk : Int → Site 𝕜} : ∀ {n : Nat} (_ : ∀ i : Int, 1 ≤ i → i ≤ n → (tb i).d = dd i ∧ (tk i).d = dd i)
    (ρ' ρ : Int → Nat) (a' w a : Nat), lv M tb tk n a' w a =
      sumCfg dd n (fun σ' => sumCfg dd n (fun σ => (starRingEnd 𝕜) (amp tb n σ' a') * hop M n σ' σ w * amp tk n σ a) ρ) ρ' := by
  intro n
  induction n with
  | zero => intro _ ρ' ρ a' w a; simp [lv, sumCfg, amp, hop]
  | succ n ih =>
    intro hd ρ' ρ b' w' b
    obtain ⟨d1, d2⟩ := hd ((n : Int) + 1) (by omega) (by push_cast; omega)
    have ih' := ih fun i h1 h2 => hd i h1 (by push_cast; omega)
    have h1 : ∀ s' s, sumCfg dd n (fun σ' => sumCfg dd n (fun σ => (starRingEnd 𝕜) (amp tb (n + 1) σ' b') * hop M (n + 1) σ' σ w' * amp tk (n + 1) σ b)
        (Function.update ρ ((n : Int) + 1) s)) (Function.update ρ' ((n : Int) + 1) s') =
        ∑ x ∈ tri (tb (n + 1)).l (M.k n) (tk (n + 1)).l, (starRingEnd 𝕜) ((tb (n + 1)).A x.1 s' b') * M.W (n + 1) x.2.1 s' s w' * (tk (n + 1)).A x.2.2 s b *
          lv M tb tk n x.1 x.2.1 x.2.2 := by
      intro s' s
      have h2 : ∀ x : Nat × Nat × Nat, (starRingEnd 𝕜) ((tb (n + 1)).A x.1 s' b') * M.W (n + 1) x.2.1 s' s w' * (tk (n + 1)).A x.2.2 s b * lv M tb tk n x.1 x.2.1 x.2.2 =
          sumCfg dd n (fun σ' => sumCfg dd n (fun σ => (starRingEnd 𝕜) ((tb (n + 1)).A x.1 s' b') * M.W (n + 1) x.2.1 s' s w' * (tk (n + 1)).A x.2.2 s b *
            ((starRingEnd 𝕜) (amp tb n σ' x.1) * hop M n σ' σ x.2.1 * amp tk n σ x.2.2)) (Function.update ρ ((n : Int) + 1) s)) (Function.update ρ' ((n : Int) + 1) s') := by
        intro x
        rw [ih' (Function.update ρ' ((n : Int) + 1) s') (Function.update ρ ((n : Int) + 1) s)]
        simp only [sumCfg_mul]
      rw [sum_congr rfl fun x _ => h2 x, ← sumCfg_add]
      refine sumCfg_congr fun σ' _ e' => ?_
      rw [← sumCfg_add]
      refine sumCfg_congr fun σ _ e => ?_
      have es' : σ' ((n : Int) + 1) = s' := by rw [e' _ (by omega), Function.update_self]
      have es : σ ((n : Int) + 1) = s := by rw [e _ (by omega), Function.update_self]
      rw [amp, amp, hop, es', es, sum_tri, map_sum, sum_mul, sum_mul]
      refine sum_congr rfl fun i _ => ?_
      rw [mul_sum]
      refine Eq.trans (sum_congr rfl fun j _ => ?_) sum_comm
      rw [mul_sum, sum_mul]
      refine sum_congr rfl fun v _ => ?_
      rw [map_mul]
      ring
    simp only [sumCfg]
    rw [lv, absL_eq]
    have h3 : ∀ s' : Nat, sumCfg dd n (fun σ' => ∑ s ∈ range (dd ((n : Int) + 1)), sumCfg dd n (fun σ => (starRingEnd 𝕜) (amp tb (n + 1) σ' b') * hop M (n + 1) σ' σ w' * amp tk (n + 1) σ b)
        (Function.update ρ ((n : Int) + 1) s)) (Function.update ρ' ((n : Int) + 1) s') =
        ∑ s ∈ range (dd ((n : Int) + 1)), ∑ x ∈ tri (tb (n + 1)).l (M.k n) (tk (n + 1)).l, (starRingEnd 𝕜) ((tb (n + 1)).A x.1 s' b') * M.W (n + 1) x.2.1 s' s w' * (tk (n + 1)).A x.2.2 s b *
          lv M tb tk n x.1 x.2.1 x.2.2 := by
      intro s'
      rw [sumCfg_add]
      exact sum_congr rfl fun s _ => h1 s' s
    rw [sum_congr rfl fun s' _ => h3 s']
    refine Eq.symm ((pull fun _ _ => pull fun _ _ => rfl).trans (sum_congr rfl fun x _ => ?_))
    rw [tr, d1, d2, mul_sum]
    refine sum_congr rfl fun s' _ => ?_
    rw [mul_sum]
    exact sum_congr rfl fun s _ => by ring

theorem lv_sandwich (M : Mpo 𝕜) {N : Nat} {dd : Int → Nat} {tb tk : Int → Site 𝕜} (cb : Chain N dd tb) (ck : Chain N dd tk) :
    lv M tb tk N 0 0 0 = sandwich M dd N (wave tb N) (wave tk N) :=
  lv_spec M (fun i h1 h2 => ⟨cb.site i h1 h2, ck.site i h1 h2⟩) _ _ 0 0 0

theorem sandwich_conj {M : Mpo 𝕜} {dd : Int → Nat} {N : Nat} (h : Herm M dd N) (φ' φ : (Int → Nat) → 𝕜) :
    (starRingEnd 𝕜) (sandwich M dd N φ' φ) = sandwich M dd N φ φ' := by
  have e := fun F ρ => sumCfg_map (dd := dd) (starRingEnd 𝕜).toAddMonoidHom F N ρ
  simp only [RingHom.toAddMonoidHom_eq_coe, AddMonoidHom.coe_coe] at e
  unfold sandwich
  rw [e]
  simp only [e]
  rw [sumCfg_comm]
  refine sumCfg_congr fun σ h1 _ => sumCfg_congr fun σ' h2 _ => ?_
  rw [h σ σ' fun i i1 i2 => ⟨h1 i i1 i2, h2 i i1 i2⟩]
  simp only [map_mul, starRingEnd_self_apply]
  ring

/-! ## Two tensors -/

/-- Two tensors replaced. -/
def put2 (t : Int → Site 𝕜) (b : Int) (p : Site 𝕜 × Site 𝕜) : Int → Site 𝕜 := Function.update (Function.update t b p.1) (b + 1) p.2

/-- They fit in place of the ones at `b` and `b+1`. -/
structure Fit (t : Int → Site 𝕜) (b : Int) (p : Site 𝕜 × Site 𝕜) : Prop where
  l : p.1.l = (t b).l
  d₁ : p.1.d = (t b).d
  m : p.1.r = p.2.l
  d₂ : p.2.d = (t (b + 1)).d
  r : p.2.r = (t (b + 1)).r

/-- The product of the two, as an element of the space at `b`. -/
def bl (t : Int → Site 𝕜) (b : Int) (p : Site 𝕜 × Site 𝕜) : Block 𝕜 (t b).l (t b).d (t (b + 1)).d (t (b + 1)).r :=
  WithLp.toLp 2 fun i => bval p.1 p.2 i.1 i.2.1 i.2.2.1 i.2.2.2

theorem put2_fst (t : Int → Site 𝕜) (b : Int) (p : Site 𝕜 × Site 𝕜) : put2 t b p b = p.1 := by simp [put2]

theorem put2_snd (t : Int → Site 𝕜) (b : Int) (p : Site 𝕜 × Site 𝕜) : put2 t b p (b + 1) = p.2 := by simp [put2]

theorem put2_ne (t : Int → Site 𝕜) {b i : Int} (p : Site 𝕜 × Site 𝕜) (h : i ≠ b) (h' : i ≠ b + 1) : put2 t b p i = t i := by simp [put2, h, h']

theorem put2_self (t : Int → Site 𝕜) (b : Int) : put2 t b (t b, t (b + 1)) = t := by simp [put2]

theorem fit_self {N : Nat} {dd : Int → Nat} {t : Int → Site 𝕜} (c : Chain N dd t) {b : Int} (h1 : 1 ≤ b) (h2 : b < N) : Fit t b (t b, t (b + 1)) :=
  ⟨rfl, rfl, c.link b h1 h2, rfl, rfl⟩

theorem bl_self (t : Int → Site 𝕜) (b : Int) : bl t b (t b, t (b + 1)) = blk (t b) (t (b + 1)) := rfl

theorem chain_put2 {N : Nat} {dd : Int → Nat} {t : Int → Site 𝕜} (c : Chain N dd t) {b : Int} (h1 : 1 ≤ b) (h2 : b < N) {p : Site 𝕜 × Site 𝕜} (f : Fit t b p) :
    Chain N dd (put2 t b p) := by
  refine ⟨?_, ?_, ?_, ?_⟩
  · by_cases e : b = 1
    · subst e; rw [put2_fst, f.l, c.first]
    · rw [put2_ne _ _ (by omega) (by omega), c.first]
  · by_cases e : b + 1 = N
    · rw [← e, put2_snd, f.r, e, c.last]
    · rw [put2_ne _ _ (by omega) (by omega), c.last]
  · intro i i1 i2
    by_cases e : i = b
    · subst e; rw [put2_fst, f.d₁, c.site i i1 i2]
    · by_cases e' : i = b + 1
      · subst e'; rw [put2_snd, f.d₂, c.site _ i1 i2]
      · rw [put2_ne _ _ e e', c.site i i1 i2]
  · intro i i1 i2
    by_cases e : i = b
    · subst e; rw [put2_fst, put2_snd, f.m]
    · by_cases e' : i = b + 1
      · subst e'; rw [put2_snd, put2_ne _ _ (by omega) (by omega), f.r, c.link _ i1 i2]
      · by_cases e'' : i + 1 = b
        · rw [put2_ne _ _ e e', e'', put2_fst, f.l, c.link i i1 i2, e'']
        · rw [put2_ne _ _ e e', put2_ne _ _ (by omega) (by omega), c.link i i1 i2]

/-- The elements of the operator projected on the sites `n+1` and `n+2`, the last `j` sites being on the right. -/
def kerAt (M : Mpo 𝕜) (N : Nat) (t : Int → Site 𝕜) (n j : Nat) {l d₁ d₂ r : Nat} (i' i : Pl l d₁ d₂ r) : 𝕜 :=
  ker (M.k n) (M.k (n + 1)) (M.k (n + 1 + 1)) (M.W (n + 1)) (M.W (n + 1 + 1)) (lv M t t n) (rv M N t t j) i' i

/-- The matrix elements of the projected operator as complete networks. -/
theorem eff_lv {M : Mpo 𝕜} {N : Nat} {dd : Int → Nat} {t : Int → Site 𝕜} (c : Chain N dd t) (hk : M.k N = 1) {n j : Nat} (h : n + 2 + j = N)
    {p q : Site 𝕜 × Site 𝕜} (fp : Fit t (n + 1) p) (fq : Fit t (n + 1) q) :
    lv M (put2 t (n + 1) p) (put2 t (n + 1) q) N 0 0 0 = inner 𝕜 (bl t (n + 1) p) (effL (kerAt M N t n j) (bl t (n + 1) q)) := by
  have cp := chain_put2 c (b := (n : Int) + 1) (by omega) (by omega) fp
  have cq := chain_put2 c (b := (n : Int) + 1) (by omega) (by omega) fq
  have e2 : (((n + 2 : Nat) : Int)) = (n : Int) + 1 + 1 := by push_cast; ring
  rw [← pairing M cp cq hk (n := n + 2) (j := j) (by omega) (by omega)]
  have el : lv M (put2 t (n + 1) p) (put2 t (n + 1) q) n = lv M t t n := lv_congr M fun i h1 h2 =>
    ⟨put2_ne _ _ (by omega) (by omega), put2_ne _ _ (by omega) (by omega)⟩
  have er : rv M N (put2 t (n + 1) p) (put2 t (n + 1) q) j = rv M N t t j := rv_congr M fun i h1 h2 =>
    ⟨put2_ne _ _ (by omega) (by omega), put2_ne _ _ (by omega) (by omega)⟩
  rw [er, lv, lv, el, e2]
  push_cast
  rw [put2_fst, put2_fst, put2_snd, put2_snd]
  exact two_sites (M.k n) (M.k (n + 1)) (M.k (n + 1 + 1)) (M.W (n + 1)) (M.W (n + 1 + 1)) (lv M t t n) (rv M N t t j) fp.l fq.l fp.d₁ fq.d₁ fp.d₂ fq.d₂ fp.r fq.r fp.m fq.m
    (bl t (n + 1) p) (bl t (n + 1) q) (fun _ => rfl) (fun _ => rfl)

/-- The matrix elements of the projected operator are matrix elements of the operator. -/
theorem eff_eq {M : Mpo 𝕜} {N : Nat} {dd : Int → Nat} {t : Int → Site 𝕜} (c : Chain N dd t) (hk : M.k N = 1) {n j : Nat} (h : n + 2 + j = N)
    {p q : Site 𝕜 × Site 𝕜} (fp : Fit t (n + 1) p) (fq : Fit t (n + 1) q) :
    sandwich M dd N (wave (put2 t (n + 1) p) N) (wave (put2 t (n + 1) q) N) = inner 𝕜 (bl t (n + 1) p) (effL (kerAt M N t n j) (bl t (n + 1) q)) := by
  rw [← eff_lv c hk h fp fq, lv_sandwich M (chain_put2 c (b := (n : Int) + 1) (by omega) (by omega) fp) (chain_put2 c (b := (n : Int) + 1) (by omega) (by omega) fq)]

/-! ## The norm -/

/-- The identity as an operator, for the norm. -/
def idM : Mpo 𝕜 := ⟨fun _ => 1, fun _ _ s' s _ => if s' = s then 1 else 0⟩

theorem tr_id (i : Int) {A' A : Site 𝕜} (h : A'.d = A.d) (x y : Nat × Nat × Nat) :
    tr (idM.W i) A' A x y = ∑ s ∈ range A.d, (starRingEnd 𝕜) (A'.A x.1 s y.1) * A.A x.2.2 s y.2.2 := by
  unfold tr
  rw [h]
  refine sum_congr rfl fun s' hs' => ?_
  rw [sum_eq_single s']
  · simp [idM]
  · intro s _ hne; simp [idM, Ne.symm hne]
  · intro hn; exact absurd hs' hn

theorem lv_id {dd : Int → Nat} {tb tk : Int → Site 𝕜} : ∀ {n : Nat} (_ : ∀ i : Int, 1 ≤ i → i ≤ n → (tb i).d = dd i ∧ (tk i).d = dd i)
    (ρ : Int → Nat) (a' w a : Nat), lv idM tb tk n a' w a = sumCfg dd n (fun σ => (starRingEnd 𝕜) (amp tb n σ a') * amp tk n σ a) ρ := by
  intro n
  induction n with
  | zero => intro _ ρ a' w a; simp [lv, sumCfg, amp]
  | succ n ih =>
    intro hd ρ b' w' b
    obtain ⟨d1, d2⟩ := hd ((n : Int) + 1) (by omega) (by push_cast; omega)
    have ih' := ih fun i h1 h2 => hd i h1 (by push_cast; omega)
    simp only [sumCfg]
    rw [lv, absL_eq, show (idM : Mpo 𝕜).k n = 1 from rfl, sum_tri]
    simp only [range_one, sum_singleton]
    have h1 : ∀ s, sumCfg dd n (fun σ => (starRingEnd 𝕜) (amp tb (n + 1) σ b') * amp tk (n + 1) σ b) (Function.update ρ ((n : Int) + 1) s) =
        ∑ a' ∈ range (tb (n + 1)).l, ∑ a ∈ range (tk (n + 1)).l, (starRingEnd 𝕜) ((tb (n + 1)).A a' s b') * (tk (n + 1)).A a s b * lv idM tb tk n a' 0 a := by
      intro s
      simp only [ih' (Function.update ρ ((n : Int) + 1) s), ← sumCfg_mul, ← sumCfg_add]
      refine sumCfg_congr fun σ _ e => ?_
      have es : σ ((n : Int) + 1) = s := by rw [e _ (by omega), Function.update_self]
      rw [amp, amp, es, map_sum, sum_mul]
      refine sum_congr rfl fun i _ => ?_
      rw [mul_sum]
      refine sum_congr rfl fun v _ => ?_
      rw [map_mul]
      ring
    rw [sum_congr rfl fun s _ => h1 s]
    refine Eq.symm ((pull fun _ _ => rfl).trans (sum_congr rfl fun i _ => ?_))
    refine (pull fun _ _ => rfl).trans (sum_congr rfl fun v _ => ?_)
    rw [tr_id _ (d1.trans d2.symm), d2, mul_sum]
    exact sum_congr rfl fun s _ => by ring

theorem lv_norm {N : Nat} {dd : Int → Nat} {t : Int → Site 𝕜} (c : Chain N dd t) : lv idM t t N 0 0 0 = ((normSq dd N (wave t N) : ℝ) : 𝕜) := by
  rw [lv_id (fun i h1 h2 => ⟨c.site i h1 h2, c.site i h1 h2⟩) (fun _ => 0)]
  have e := sumCfg_map (dd := dd) (RCLike.ofRealAm (K := 𝕜)).toAddMonoidHom (fun σ => ‖wave t N σ‖ ^ 2) N fun _ => 0
  unfold normSq
  refine Eq.trans ?_ e.symm
  refine sumCfg_congr fun σ _ _ => ?_
  change (starRingEnd 𝕜) (wave t N σ) * wave t N σ = ((‖wave t N σ‖ ^ 2 : ℝ) : 𝕜)
  rw [RCLike.conj_mul]
  push_cast
  rfl

theorem lv_gauge {N : Nat} {dd : Int → Nat} {t : Int → Site 𝕜} (c : Chain N dd t) : ∀ {n : Nat}, n < N → (∀ i : Int, 1 ≤ i → i ≤ n → LO (t i)) →
    ∀ a' < (t (n + 1)).l, ∀ w, ∀ a < (t (n + 1)).l, lv idM t t n a' w a = if a' = a then 1 else 0 := by
  intro n
  induction n with
  | zero =>
    intro _ _ a' h' w a h
    rw [show ((0 : Nat) : Int) + 1 = 1 from rfl, c.first] at h h'
    obtain rfl : a' = 0 := by omega
    obtain rfl : a = 0 := by omega
    simp [lv]
  | succ n ih =>
    intro hn hl b' h' w' b h
    have ih' := ih (by omega) fun i h1 h2 => hl i h1 (by push_cast; omega)
    push_cast at h h'
    rw [← c.link ((n : Int) + 1) (by omega) (by omega)] at h h'
    rw [← hl ((n : Int) + 1) (by omega) (by push_cast; omega) b' h' b h]
    rw [lv, absL_eq, show (idM : Mpo 𝕜).k n = 1 from rfl, sum_tri]
    simp only [range_one, sum_singleton]
    refine sum_congr rfl fun a' ha' => ?_
    rw [sum_eq_single a']
    · rw [ih' a' (by simpa using ha') 0 a' (by simpa using ha'), if_pos rfl, one_mul, tr_id _ rfl]
    · intro a ha hne
      rw [ih' a' (by simpa using ha') 0 a (by simpa using ha), if_neg (Ne.symm hne), zero_mul]
    · intro hn'; exact absurd ha' hn'

theorem rv_gauge {N : Nat} {dd : Int → Nat} {t : Int → Site 𝕜} (c : Chain N dd t) : ∀ {j : Nat}, j < N → (∀ i : Int, (N : Int) - j < i → i ≤ N → RO (t i)) →
    ∀ a' < (t (N - j)).r, ∀ w, ∀ a < (t (N - j)).r, rv idM N t t j a' w a = if a' = a then 1 else 0 := by
  intro j
  induction j with
  | zero =>
    intro _ _ a' h' w a h
    rw [show (N : Int) - ((0 : Nat) : Int) = N by simp, c.last] at h h'
    obtain rfl : a' = 0 := by omega
    obtain rfl : a = 0 := by omega
    simp [rv]
  | succ j ih =>
    intro hn hl b' h' w' b h
    have ih' := ih (by omega) fun i h1 h2 => hl i (by push_cast; omega) h2
    have e : (N : Int) - ((j + 1 : Nat) : Int) + 1 = N - j := by push_cast; ring
    have hlk := c.link ((N : Int) - ((j + 1 : Nat) : Int)) (by push_cast; omega) (by push_cast; omega)
    rw [e] at hlk
    rw [hlk] at h h'
    rw [← hl ((N : Int) - j) (by push_cast; omega) (by omega) b' h' b h]
    rw [rv, absR_eq, show (idM : Mpo 𝕜).k (N - j) = 1 from rfl, sum_tri]
    simp only [range_one, sum_singleton]
    refine sum_congr rfl fun a' ha' => ?_
    rw [sum_eq_single a']
    · rw [ih' a' (by simpa using ha') 0 a' (by simpa using ha'), if_pos rfl, mul_one, tr_id _ rfl]
    · intro a ha hne
      rw [ih' a' (by simpa using ha') 0 a (by simpa using ha), if_neg (Ne.symm hne), mul_zero]
    · intro hn'; exact absurd ha' hn'

/-- The norm of the product of the two tensors in the middle is the norm of the state. -/
theorem norm_eq {N : Nat} {dd : Int → Nat} {t : Int → Site 𝕜} (c : Chain N dd t) {n j : Nat} (h : n + 2 + j = N)
    (hl : ∀ i : Int, 1 ≤ i → i ≤ n → LO (t i)) (hr : ∀ i : Int, (n : Int) + 3 ≤ i → i ≤ N → RO (t i)) {p : Site 𝕜 × Site 𝕜} (fp : Fit t (n + 1) p) :
    normSq dd N (wave (put2 t (n + 1) p) N) = ‖bl t (n + 1) p‖ ^ 2 := by
  have e := eff_lv c (M := idM) rfl h fp fp
  rw [lv_norm (chain_put2 c (b := (n : Int) + 1) (by omega) (by omega) fp)] at e
  have ek : effL (kerAt idM N t n j) (bl t (n + 1) p) = bl t (n + 1) p := by
    have g1 := lv_gauge c (n := n) (by omega) hl
    have g2 := rv_gauge c (j := j) (by omega) (fun i i1 i2 => hr i (by omega) i2)
    rw [show (N : Int) - j = n + 1 + 1 by omega] at g2
    have kk : ∀ i' i : Pl (t (n + 1)).l (t (n + 1)).d (t (n + 1 + 1)).d (t (n + 1 + 1)).r, kerAt idM N t n j i' i = if i' = i then 1 else 0 := by
      rintro ⟨a', s₁', s₂', c'⟩ ⟨a, s₁, s₂, c⟩
      simp only [kerAt, ker, show ∀ i, (idM : Mpo 𝕜).k i = 1 from fun _ => rfl, range_one, sum_singleton]
      rw [g1 _ a'.2 _ _ a.2, g2 _ c'.2 _ _ c.2]
      simp only [idM, Prod.mk.injEq, Fin.ext_iff]
      by_cases h1 : (a' : Nat) = a <;> by_cases h2 : (s₁' : Nat) = s₁ <;> by_cases h3 : (s₂' : Nat) = s₂ <;> by_cases h4 : (c' : Nat) = c <;> simp [h1, h2, h3, h4]
    ext i'
    rw [effL_apply]
    simp only [kk, ite_mul, one_mul, zero_mul, sum_ite_eq, mem_univ, if_true]
  rw [ek, inner_self_eq_norm_sq_to_K] at e
  exact_mod_cast e

/-! ## Every vector is a product of two tensors -/

/-- Factorizations without a truncation: one of the tensors only renames. -/
def trivL {l d₁ d₂ r : Nat} (x : Block 𝕜 l d₁ d₂ r) : Site 𝕜 × Site 𝕜 :=
  (⟨l, d₁, l * d₁, fun a s m => if m = a * d₁ + s then 1 else 0⟩,
    ⟨l * d₁, d₂, r, fun m s c => if h : m / d₁ < l ∧ m % d₁ < d₁ ∧ s < d₂ ∧ c < r then x (⟨_, h.1⟩, ⟨_, h.2.1⟩, ⟨s, h.2.2.1⟩, ⟨c, h.2.2.2⟩) else 0⟩)

def trivR {l d₁ d₂ r : Nat} (x : Block 𝕜 l d₁ d₂ r) : Site 𝕜 × Site 𝕜 :=
  (⟨l, d₁, d₂ * r, fun a s m => if h : a < l ∧ s < d₁ ∧ m / r < d₂ ∧ m % r < r then x (⟨a, h.1⟩, ⟨s, h.2.1⟩, ⟨_, h.2.2.1⟩, ⟨_, h.2.2.2⟩) else 0⟩,
    ⟨d₂ * r, d₂, r, fun m s c => if m = s * r + c then 1 else 0⟩)

theorem code_lt {a b c d : Nat} (h1 : a < c) (h2 : b < d) : a * d + b < c * d := by
  calc a * d + b < a * d + d := by omega
    _ = (a + 1) * d := by ring
    _ ≤ c * d := Nat.mul_le_mul_right _ h1

theorem code_div {a b d : Nat} (h2 : b < d) : (a * d + b) / d = a := by
  rw [Nat.add_comm, Nat.add_mul_div_right _ _ (by omega), Nat.div_eq_of_lt h2, Nat.zero_add]

theorem code_mod {a b d : Nat} (h2 : b < d) : (a * d + b) % d = b := by
  rw [Nat.add_comm, Nat.add_mul_mod_self_right, Nat.mod_eq_of_lt h2]

theorem bval_trivL {l d₁ d₂ r : Nat} (x : Block 𝕜 l d₁ d₂ r) (i : Pl l d₁ d₂ r) :
    bval (trivL x).1 (trivL x).2 i.1 i.2.1 i.2.2.1 i.2.2.2 = x i := by
  obtain ⟨a, s₁, s₂, c⟩ := i
  unfold bval trivL
  dsimp only
  rw [sum_eq_single ((a : Nat) * d₁ + s₁)]
  · rw [if_pos rfl, one_mul]
    simp only [code_div s₁.2, code_mod s₁.2]
    rw [dif_pos ⟨a.2, s₁.2, s₂.2, c.2⟩]
  · intro m _ hm; rw [if_neg hm, zero_mul]
  · intro hn; exact absurd (mem_range.2 (code_lt a.2 s₁.2)) hn

theorem bval_trivR {l d₁ d₂ r : Nat} (x : Block 𝕜 l d₁ d₂ r) (i : Pl l d₁ d₂ r) :
    bval (trivR x).1 (trivR x).2 i.1 i.2.1 i.2.2.1 i.2.2.2 = x i := by
  obtain ⟨a, s₁, s₂, c⟩ := i
  unfold bval trivR
  dsimp only
  rw [sum_eq_single ((s₂ : Nat) * r + c)]
  · rw [if_pos rfl, mul_one]
    simp only [code_div c.2, code_mod c.2]
    rw [dif_pos ⟨a.2, s₁.2, s₂.2, c.2⟩]
  · intro m _ hm; rw [if_neg hm, mul_zero]
  · intro hn; exact absurd (mem_range.2 (code_lt s₂.2 c.2)) hn

theorem trivL_lo {l d₁ d₂ r : Nat} (x : Block 𝕜 l d₁ d₂ r) : LO (trivL x).1 := by
  intro c' h' c h
  simp only [trivL] at h h' ⊢
  have hd : 0 < d₁ := by
    rcases Nat.eq_zero_or_pos d₁ with e | e
    · rw [e, Nat.mul_zero] at h; omega
    · exact e
  have e1 : c' / d₁ < l := Nat.div_lt_of_lt_mul (by rwa [Nat.mul_comm] at h')
  have e2 : c' % d₁ < d₁ := Nat.mod_lt _ hd
  rw [sum_eq_single (c' / d₁), sum_eq_single (c' % d₁)]
  · rw [Nat.mul_comm, Nat.div_add_mod, if_pos rfl, map_one, one_mul]
    by_cases e : c' = c
    · simp [e]
    · simp [e, Ne.symm e]
  · intro s hs hne
    rw [if_neg, map_zero, zero_mul]
    intro e
    rw [e, code_mod (by simpa using hs)] at hne
    exact hne rfl
  · intro hn; exact absurd (mem_range.2 e2) hn
  · intro a ha hne
    refine sum_eq_zero fun s hs => ?_
    rw [if_neg, map_zero, zero_mul]
    intro e
    rw [e, code_div (by simpa using hs)] at hne
    exact hne rfl
  · intro hn; exact absurd (mem_range.2 e1) hn

theorem trivR_ro {l d₁ d₂ r : Nat} (x : Block 𝕜 l d₁ d₂ r) : RO (trivR x).2 := by
  intro c' h' c h
  simp only [trivR] at h h' ⊢
  have hd : 0 < r := by
    rcases Nat.eq_zero_or_pos r with e | e
    · rw [e, Nat.mul_zero] at h; omega
    · exact e
  have e1 : c' / r < d₂ := Nat.div_lt_of_lt_mul (by rwa [Nat.mul_comm] at h')
  have e2 : c' % r < r := Nat.mod_lt _ hd
  rw [sum_eq_single (c' % r), sum_eq_single (c' / r)]
  · rw [Nat.mul_comm, Nat.div_add_mod, if_pos rfl, map_one, one_mul]
    by_cases e : c' = c
    · simp [e]
    · simp [e, Ne.symm e]
  · intro s hs hne
    rw [if_neg, map_zero, zero_mul]
    intro e
    rw [e, code_div e2] at hne
    exact hne rfl
  · intro hn; exact absurd (mem_range.2 e1) hn
  · intro a ha hne
    refine sum_eq_zero fun s hs => ?_
    rw [if_neg, map_zero, zero_mul]
    intro e
    rw [e, code_mod (by simpa using ha)] at hne
    exact hne rfl
  · intro hn; exact absurd (mem_range.2 e2) hn

/-- The projected operator is Hermitian if the operator is. -/
theorem eff_symm {M : Mpo 𝕜} {N : Nat} {dd : Int → Nat} {t : Int → Site 𝕜} (c : Chain N dd t) (hk : M.k N = 1) (hH : Herm M dd N) {n j : Nat} (h : n + 2 + j = N) :
    (effL (kerAt M N t n j : Pl (t (n + 1)).l (t (n + 1)).d (t (n + 1 + 1)).d (t (n + 1 + 1)).r → _ → 𝕜)).IsSymmetric := by
  intro x y
  have fx : Fit t (n + 1) (trivL x) := ⟨rfl, rfl, rfl, rfl, rfl⟩
  have fy : Fit t (n + 1) (trivL y) := ⟨rfl, rfl, rfl, rfl, rfl⟩
  have bx : bl t (n + 1) (trivL x) = x := by ext i; exact bval_trivL x i
  have by' : bl t (n + 1) (trivL y) = y := by ext i; exact bval_trivL y i
  have h1 := eff_eq c hk h fx fy
  have h2 := eff_eq c hk h fy fx
  rw [bx, by'] at h1 h2
  rw [← h1, ← inner_conj_symm, ← h2, sandwich_conj hH]

end Verif.DmrgNum
