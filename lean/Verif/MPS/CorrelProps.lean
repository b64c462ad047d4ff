import Verif.MPS.Correl

/-! # The networks of `correlationMatrix` as expectation values -/

noncomputable section

namespace Verif.Correl

open Finset Verif.Limits
open Verif.DmrgNum

variable {𝕜 : Type*} [RCLike 𝕜]

/-! ## Products of operators of sites -/

theorem sumCfg_rho {K : Type*} [AddCommMonoid K] {dd : Int → Nat} (F : (Int → Nat) → K) : ∀ {n : Nat} {ρ ρ' : Int → Nat},
    (∀ i : Int, ¬(1 ≤ i ∧ i ≤ n) → ρ i = ρ' i) → sumCfg dd n F ρ = sumCfg dd n F ρ' := by
  intro n
  induction n with
  | zero =>
    intro ρ ρ' h
    have : ρ = ρ' := funext fun i => h i (by simp; omega)
    rw [this]
  | succ n ih =>
    intro ρ ρ' h
    simp only [sumCfg]
    refine sum_congr rfl fun s _ => ih fun i hi => ?_
    by_cases e : i = (n : Int) + 1
    · subst e; simp
    · rw [Function.update_of_ne e, Function.update_of_ne e]
      exact h i (by push_cast; omega)

theorem tens_succ (P : Int → Op 𝕜) (n : Nat) (σ' σ : Int → Nat) :
    tens P (n + 1) σ' σ = tens P n σ' σ * P ((n : Int) + 1) (σ' ((n : Int) + 1)) (σ ((n : Int) + 1)) := by
  unfold tens
  rw [prod_range_succ]

theorem tens_congr {P Q : Int → Op 𝕜} {n : Nat} {σ' σ : Int → Nat}
    (h : ∀ i : Int, 1 ≤ i → i ≤ n → P i (σ' i) (σ i) = Q i (σ' i) (σ i)) : tens P n σ' σ = tens Q n σ' σ := by
  unfold tens
  refine prod_congr rfl fun k hk => h _ (by omega) ?_
  have : k < n := by simpa using hk
  omega

/-- The product of two products of operators is the product of the products. -/
theorem tens_mul {dd : Int → Nat} (P Q : Int → Op 𝕜) : ∀ {n : Nat} (σ' σ ρ : Int → Nat),
    sumCfg dd n (fun τ => tens P n σ' τ * tens Q n τ σ) ρ = tens (fun k => mulOp (dd k) (P k) (Q k)) n σ' σ := by
  intro n
  induction n with
  | zero => intro σ' σ ρ; simp [sumCfg, tens]
  | succ n ih =>
    intro σ' σ ρ
    simp only [sumCfg]
    rw [tens_succ, mulOp, mul_sum]
    refine sum_congr rfl fun s _ => ?_
    rw [← ih σ' σ (Function.update ρ ((n : Int) + 1) s), mul_comm, ← sumCfg_mul]
    refine sumCfg_congr fun τ _ e => ?_
    have es : τ ((n : Int) + 1) = s := by rw [e _ (by omega), Function.update_self]
    rw [tens_succ, tens_succ, es]
    ring

/-- The product as an MPO. -/
def prodM (P : Int → Op 𝕜) : Mpo 𝕜 := ⟨fun _ => 1, fun i _ s' s _ => P i s' s⟩

theorem hop_prod (P : Int → Op 𝕜) : ∀ (n : Nat) (σ' σ : Int → Nat) (w : Nat), hop (prodM P) n σ' σ w = tens P n σ' σ := by
  intro n
  induction n with
  | zero => intro σ' σ w; simp [hop, tens]
  | succ n ih =>
    intro σ' σ w
    rw [hop, tens_succ, show (prodM P).k n = 1 from rfl, sum_range_one, ih]
    rfl

/-- `<φ|P|φ>`. -/
def val (dd : Int → Nat) (N : Nat) (φ : (Int → Nat) → 𝕜) (P : Int → Op 𝕜) : 𝕜 := sandwich (prodM P) dd N φ φ

theorem expv_eq (dd : Int → Nat) (N : Nat) (φ : (Int → Nat) → 𝕜) (P : Int → Op 𝕜) : expv dd N φ (tens P N) = val dd N φ P / (normSq dd N φ : 𝕜) := by
  unfold expv val sandwich elem
  simp only [hop_prod]

theorem val_congr {dd : Int → Nat} {N : Nat} {φ : (Int → Nat) → 𝕜} {P Q : Int → Op 𝕜}
    (h : ∀ i : Int, 1 ≤ i → i ≤ N → ∀ s' < dd i, ∀ s < dd i, P i s' s = Q i s' s) : val dd N φ P = val dd N φ Q := by
  unfold val sandwich elem
  simp only [hop_prod]
  refine sumCfg_congr fun σ' h1 _ => sumCfg_congr fun σ h2 _ => ?_
  rw [tens_congr fun i i1 i2 => h i i1 i2 _ (h1 i i1 i2) _ (h2 i i1 i2)]

theorem corr_eq (dd : Int → Nat) (N : Nat) (φ : (Int → Nat) → 𝕜) (P Q : Int → Op 𝕜) :
    corr dd N φ (tens P N) (tens Q N) = val dd N φ (fun k => mulOp (dd k) (P k) (Q k)) / (normSq dd N φ : 𝕜) := by
  unfold corr val sandwich elem
  congr 1
  refine sumCfg_congr fun σ' _ _ => ?_
  rw [sumCfg_comm]
  refine sumCfg_congr fun σ _ _ => ?_
  rw [hop_prod, ← tens_mul P Q σ' σ (fun _ => 0), mul_right_comm, ← sumCfg_mul]
  refine sumCfg_congr fun τ _ _ => ?_
  ring

theorem val_conj (dd : Int → Nat) (N : Nat) (φ : (Int → Nat) → 𝕜) (P : Int → Op 𝕜) :
    (starRingEnd 𝕜) (val dd N φ P) = val dd N φ fun k s' s => (starRingEnd 𝕜) (P k s s') := by
  have e := fun F ρ => sumCfg_map (dd := dd) (starRingEnd 𝕜).toAddMonoidHom F N ρ
  simp only [RingHom.toAddMonoidHom_eq_coe, AddMonoidHom.coe_coe] at e
  unfold val sandwich elem
  rw [e]
  simp only [e, hop_prod]
  rw [sumCfg_comm]
  refine sumCfg_congr fun σ h1 _ => sumCfg_congr fun σ' h2 _ => ?_
  have : (starRingEnd 𝕜) (tens P N σ' σ) = tens (fun k s' s => (starRingEnd 𝕜) (P k s s')) N σ σ' := by
    unfold tens
    rw [map_prod]
  rw [← this]
  simp only [map_mul, starRingEnd_self_apply]
  ring

/-- One of the operators multiplied with a number. -/
theorem val_smul {dd : Int → Nat} {N : Nat} {φ : (Int → Nat) → 𝕜} {P Q : Int → Op 𝕜} {c : 𝕜} {i : Int} (h1 : 1 ≤ i) (h2 : i ≤ N)
    (hi : ∀ s' < dd i, ∀ s < dd i, Q i s' s = c * P i s' s) (h : ∀ k : Int, 1 ≤ k → k ≤ N → k ≠ i → ∀ s' < dd k, ∀ s < dd k, Q k s' s = P k s' s) :
    val dd N φ Q = c * val dd N φ P := by
  unfold val sandwich elem
  simp only [hop_prod]
  rw [← sumCfg_mul]
  refine sumCfg_congr fun σ' v' _ => ?_
  rw [← sumCfg_mul]
  refine sumCfg_congr fun σ v _ => ?_
  have : tens Q N σ' σ = c * tens P N σ' σ := by
    obtain ⟨m, rfl⟩ : ∃ m : Nat, i = (m : Int) + 1 := ⟨(i - 1).toNat, by omega⟩
    have hm : m ∈ range N := by simp; omega
    unfold tens
    rw [← mul_prod_erase _ _ hm, ← mul_prod_erase _ _ hm, hi _ (v' _ h1 h2) _ (v _ h1 h2), mul_assoc]
    congr 2
    refine prod_congr rfl fun k hk => ?_
    rw [mem_erase, mem_range] at hk
    have k1 : (1 : Int) ≤ (k : Int) + 1 := by omega
    have k2 : (k : Int) + 1 ≤ N := by omega
    exact h ((k : Int) + 1) k1 k2 (by omega) _ (v' _ k1 k2) _ (v _ k1 k2)
  rw [this]
  ring

/-! ## The environments -/

theorem lv_op {t : Int → Site 𝕜} {P Q : Int → Op 𝕜} : ∀ {n : Nat}, (∀ i : Int, 1 ≤ i → i ≤ n → ∀ s' < (t i).d, ∀ s < (t i).d, P i s' s = Q i s' s) →
    lv (prodM P) t t n = lv (prodM Q) t t n := by
  intro n
  induction n with
  | zero => intro _; rfl
  | succ n ih =>
    intro h
    rw [lv, lv, ih fun i h1 h2 => h i h1 (by push_cast; omega)]
    funext b' w' b
    rw [absL_eq, absL_eq]
    refine sum_congr rfl fun x _ => congrArg _ ?_
    unfold tr
    refine sum_congr rfl fun s' hs' => sum_congr rfl fun s hs => ?_
    have := h ((n : Int) + 1) (by omega) (by push_cast; omega) s' (by simpa using hs') s (by simpa using hs)
    simp only [prodM, this]

theorem rv_op {N : Nat} {t : Int → Site 𝕜} {P Q : Int → Op 𝕜} : ∀ {j : Nat},
    (∀ i : Int, (N : Int) - j < i → i ≤ N → ∀ s' < (t i).d, ∀ s < (t i).d, P i s' s = Q i s' s) → rv (prodM P) N t t j = rv (prodM Q) N t t j := by
  intro j
  induction j with
  | zero => intro _; rfl
  | succ j ih =>
    intro h
    rw [rv, rv, ih fun i h1 h2 => h i (by push_cast; omega) h2]
    funext b' w' b
    rw [absR_eq, absR_eq]
    refine sum_congr rfl fun x _ => congrArg (· * _) ?_
    unfold tr
    refine sum_congr rfl fun s' hs' => sum_congr rfl fun s hs => ?_
    have := h ((N : Int) - j) (by push_cast; omega) (by omega) s' (by simpa using hs') s (by simpa using hs)
    simp only [prodM, this]

/-- `E` is the environment of the first `n` sites with the operators `P`. -/
def IsEnv (t : Int → Site 𝕜) (P : Int → Op 𝕜) (n : Nat) (E : Nat → Nat → 𝕜) : Prop :=
  ∀ b < (t (n + 1)).l, ∀ b' < (t (n + 1)).l, E b b' = lv (prodM P) t t n b' 0 b

theorem IsEnv.congr {t : Int → Site 𝕜} {P Q : Int → Op 𝕜} {n : Nat} {E : Nat → Nat → 𝕜} (h : IsEnv t P n E)
    (e : ∀ i : Int, 1 ≤ i → i ≤ n → ∀ s' < (t i).d, ∀ s < (t i).d, P i s' s = Q i s' s) : IsEnv t Q n E := by
  intro b hb b' hb'
  rw [h b hb b' hb', lv_op e]

/-- The sum after a site. -/
theorem close_eq {t : Int → Site 𝕜} {P : Int → Op 𝕜} {n : Nat} {E : Nat → Nat → 𝕜} (h : IsEnv t P n E) (b b' : Nat) :
    close (t (n + 1)) (onSite (t (n + 1)).d (P (n + 1)) (mulL (t (n + 1)) E)) b b' = lv (prodM P) t t (n + 1) b' 0 b := by
  rw [lv, absL]
  unfold close onSite mulL
  simp only [show (prodM P).k n = 1 from rfl, sum_range_one]
  refine sum_congr rfl fun a' ha' => sum_congr rfl fun s' _ => congrArg (· * _) (sum_congr rfl fun s _ => ?_)
  change _ = (∑ a ∈ range (t (n + 1)).l, lv (prodM P) t t n a' 0 a * (t (n + 1)).A a s b) * P (n + 1) s' s
  refine congrArg (· * _) (sum_congr rfl fun a ha => ?_)
  rw [h a (by simpa using ha) a' (by simpa using ha')]

theorem onSite_one {A : Site 𝕜} (X : Nat → Nat → Nat → 𝕜) : close A (onSite A.d one X) = close A X := by
  funext b b'
  unfold close
  refine sum_congr rfl fun a' _ => sum_congr rfl fun s' hs' => congrArg (· * _) ?_
  unfold onSite one
  rw [sum_eq_single s' (fun s _ hne => by rw [if_neg (Ne.symm hne), mul_zero]) (fun hn => absurd hs' hn), if_pos rfl, mul_one]

theorem IsEnv.step {t : Int → Site 𝕜} {P : Int → Op 𝕜} {n : Nat} {E : Nat → Nat → 𝕜} (h : IsEnv t P n E) :
    IsEnv t P (n + 1) (close (t (n + 1)) (onSite (t (n + 1)).d (P (n + 1)) (mulL (t (n + 1)) E))) := by
  intro b _ b' _
  exact close_eq h b b'

/-- The network with all links contracted. -/
theorem total_eq {N : Nat} {dd : Int → Nat} {t : Int → Site 𝕜} (c : Chain N dd t) {P : Int → Op 𝕜} {n j : Nat} (hj : n + 1 + j = N) {E : Nat → Nat → 𝕜} (h : IsEnv t P n E)
    (hr : ∀ i : Int, (n : Int) + 1 < i → i ≤ N → RO (t i)) (hp : ∀ i : Int, (n : Int) + 1 < i → i ≤ N → ∀ s' < dd i, ∀ s < dd i, P i s' s = one s' s) :
    total (t (n + 1)) (onSite (t (n + 1)).d (P (n + 1)) (mulL (t (n + 1)) E)) = val dd N (wave t N) P := by
  unfold val
  rw [← lv_sandwich (prodM P) c c, ← pairing (prodM P) c c rfl (n := n + 1) (j := j) (by omega) hj]
  have g := rv_gauge c (j := j) (by omega) fun i i1 i2 => hr i (by omega) i2
  have e : rv (prodM P) N t t j = rv idM N t t j := rv_op (Q := fun _ => one) fun i i1 i2 s' h' s h => hp i (by omega) i2 s' (by rwa [c.site i (by omega) i2] at h') s
    (by rwa [c.site i (by omega) i2] at h)
  rw [show (N : Int) - j = (n + 1 : Nat) by omega] at g
  rw [e, show (prodM P).k ((n + 1 : Nat) : Int) = 1 from rfl, sum_tri]
  simp only [sum_range_one]
  have : total (t (n + 1)) (onSite (t (n + 1)).d (P (n + 1)) (mulL (t (n + 1)) E)) =
      ∑ b ∈ range (t (n + 1)).r, close (t (n + 1)) (onSite (t (n + 1)).d (P (n + 1)) (mulL (t (n + 1)) E)) b b := by
    unfold total close
    rw [sum_comm]
    conv_rhs => rw [sum_comm]
    rw [sum_comm]
    refine sum_congr rfl fun a' _ => ?_
    rw [sum_comm]
  rw [this]
  push_cast
  refine sum_congr rfl fun b hb => ?_
  have hb' : b < (t ((n : Int) + 1)).r := by simpa using hb
  push_cast at g
  rw [sum_eq_single b]
  · rw [g b hb' 0 b hb', if_pos rfl, mul_one, close_eq h]
  · intro b2 h2 hne
    rw [g b hb' 0 b2 (by simpa using h2), if_neg (Ne.symm hne), mul_zero]
  · intro hn; exact absurd hb hn

/-- The environment at the start. -/
theorem start_env {N : Nat} {dd : Int → Nat} {t : Int → Site 𝕜} (c : Chain N dd t) {n : Nat} (hn : n < N) (hl : ∀ i : Int, 1 ≤ i → i ≤ n → LO (t i)) {P : Int → Op 𝕜}
    (hp : ∀ i : Int, 1 ≤ i → i ≤ n → P i = one) :
    IsEnv t P n (if (n : Int) + 1 > 1 then fun b b' => if b = b' then 1 else 0 else fun _ _ => 1) := by
  intro b hb b' hb'
  rw [lv_op (Q := fun _ => one) fun i h1 h2 s' _ s _ => by rw [hp i h1 h2]]
  refine Eq.trans ?_ (lv_gauge c hn hl b' hb' 0 b hb).symm
  by_cases h0 : n = 0
  · subst h0
    rw [show ((0 : Nat) : Int) + 1 = 1 from rfl, c.first] at hb hb'
    obtain rfl : b = 0 := by omega
    obtain rfl : b' = 0 := by omega
    simp
  · rw [if_pos (by omega)]
    simp [eq_comm]

/-- The product with it changes nothing. -/
theorem mulL_start {N : Nat} {dd : Int → Nat} {t : Int → Site 𝕜} (c : Chain N dd t) {n a s b : Nat} (ha : a ∈ range (t ((n : Int) + 1)).l) :
    mulL (t ((n : Int) + 1)) (if (n : Int) + 1 > 1 then fun b b' => if b = b' then 1 else 0 else fun _ _ => 1) a s b = (t ((n : Int) + 1)).A a s b := by
  unfold mulL
  rw [sum_eq_single a]
  · split_ifs <;> simp
  · intro a2 h2 hne
    by_cases h0 : n = 0
    · subst h0
      rw [show ((0 : Nat) : Int) + 1 = 1 from rfl, c.first] at ha h2
      simp at ha h2
      omega
    · rw [if_pos (by omega)]
      simp [hne]
  · intro hn; exact absurd ha hn

/-- The norm of the tensor in the centre is that of the state. -/
theorem frob_center {N : Nat} {dd : Int → Nat} {t : Int → Site 𝕜} (c : Chain N dd t) {n : Nat} (hn : n < N) (hl : ∀ i : Int, 1 ≤ i → i ≤ n → LO (t i))
    (hr : ∀ i : Int, (n : Int) + 1 < i → i ≤ N → RO (t i)) : frob (t (n + 1)) = normSq dd N (wave t N) := by
  have e := total_eq c (P := fun _ => one) (n := n) (j := N - (n + 1)) (by omega) (start_env c hn hl fun _ _ _ => rfl) hr fun _ _ _ _ _ _ _ => rfl
  have e2 : val dd N (wave t N) (fun _ => one) = ((normSq dd N (wave t N) : ℝ) : 𝕜) := by
    rw [← lv_norm c, lv_sandwich idM c c]
    rfl
  rw [e2] at e
  have e3 : (frob (t (n + 1)) : 𝕜) = ((normSq dd N (wave t N) : ℝ) : 𝕜) := by
    rw [← e]
    unfold frob total
    push_cast
    refine sum_congr rfl fun a ha => sum_congr rfl fun s hs => sum_congr rfl fun b _ => ?_
    have : onSite (t (n + 1)).d one (mulL (t (n + 1)) (if (n : Int) + 1 > 1 then fun b b' => if b = b' then 1 else 0 else fun _ _ => 1)) a s b = (t (n + 1)).A a s b := by
      unfold onSite one
      rw [sum_eq_single s (fun s2 _ hne => by rw [if_neg (Ne.symm hne), mul_zero]) (fun hn => absurd hs hn), if_pos rfl, mul_one]
      exact mulL_start c ha
    rw [this, mul_comm, RCLike.conj_mul]
  exact_mod_cast e3

/-! ## The loops -/

/-- The operators between the two sites and before. -/
def strP (f : Bool) (F : Int → Op 𝕜) (oi : Op 𝕜) (i : Int) : Int → Op 𝕜 := fun k => if k < i then one else if k = i then oi else if f then F k else one

/-- The operators of one number of the matrix. -/
def bond (f : Bool) (F : Int → Op 𝕜) (oi : Op 𝕜) (o : Int → Op 𝕜) (i j : Int) : Int → Op 𝕜 :=
  fun k => if k < j then strP f F oi i k else if k = j then o k else one

def fold (w : Nat → 𝕜 → (Nat → Nat → 𝕜) → Nat → Nat → 𝕜) (v : Nat → 𝕜) : Nat → Nat → (Nat → Nat → 𝕜) → Nat → Nat → 𝕜
  | 0, _, C => C
  | k + 1, cj, C => fold w v k (cj + 1) (w cj (v cj) C)

theorem rowLoop_eq {N : Nat} {dd : Int → Nat} {t : Int → Site 𝕜} (c : Chain N dd t) {f : Bool} {F o : Int → Op 𝕜} {oi : Op 𝕜} {nrm2 : ℝ}
    {w : Nat → 𝕜 → (Nat → Nat → 𝕜) → Nat → Nat → 𝕜} {a i : Int} (hr : ∀ j : Int, a < j → j ≤ N → RO (t j)) (hai : a ≤ i) :
    ∀ {k n cj : Nat} {E C : Nat → Nat → 𝕜}, a + cj = (n : Int) + 1 → i ≤ n → n + k ≤ N → IsEnv t (strP f F oi i) n E →
      rowLoop t f F o nrm2 w k ((n : Int) + 1) cj E C = fold w (fun m => val dd N (wave t N) (bond f F oi o i (a + m)) / (nrm2 : 𝕜)) k cj C := by
  intro k
  induction k with
  | zero => intro n cj E C _ _ _ _; rfl
  | succ k ih =>
    intro n cj E C hc hi hk hE
    rw [rowLoop, fold]
    have h1 : total (t ((n : Int) + 1)) (onSite (t ((n : Int) + 1)).d (o ((n : Int) + 1)) (mulL (t ((n : Int) + 1)) E)) =
        val dd N (wave t N) (bond f F oi o i (a + cj)) := by
      have hE' : IsEnv t (bond f F oi o i (a + cj)) n E := hE.congr fun x _ x2 s' _ s _ => by
        unfold bond
        rw [if_pos (by omega)]
      have := total_eq c (j := N - (n + 1)) (by omega) hE' (fun x x1 x2 => hr x (by omega) x2) fun x x1 x2 s' _ s _ => by
        unfold bond
        rw [if_neg (by omega), if_neg (by omega)]
      rw [← this]
      congr 2
      unfold bond
      rw [if_neg (by omega), if_pos (by omega)]
    have h2 : IsEnv t (strP f F oi i) (n + 1)
        (close (t ((n : Int) + 1)) (if f then onSite (t ((n : Int) + 1)).d (F ((n : Int) + 1)) (mulL (t ((n : Int) + 1)) E) else mulL (t ((n : Int) + 1)) E)) := by
      have := hE.step
      have e : strP f F oi i ((n : Int) + 1) = if f then F ((n : Int) + 1) else one := by
        unfold strP
        rw [if_neg (by omega), if_neg (by omega)]
      rw [e] at this
      cases f
      · simpa only [Bool.false_eq_true, if_false, onSite_one] using this
      · simpa using this
    rw [h1]
    have := ih (n := n + 1) (cj := cj + 1) (C := w cj (val dd N (wave t N) (bond f F oi o i (a + cj)) / (nrm2 : 𝕜)) C) (by push_cast; omega) (by push_cast; omega)
      (by omega) h2
    push_cast at this
    exact this

omit [RCLike 𝕜] in
/-- What a sequence of writes leaves. -/
theorem fold_spec {w : Nat → 𝕜 → (Nat → Nat → 𝕜) → Nat → Nat → 𝕜} {v : Nat → 𝕜} {slot : Nat → Nat → Option Nat} {out : Nat → Nat → 𝕜 → 𝕜} {ci : Nat}
    (hw : ∀ m, ci < m → ∀ u C x y, w m u C x y = if slot x y = some m then out x y u else C x y) :
    ∀ {k cj : Nat} {C : Nat → Nat → 𝕜}, ci < cj → ∀ x y,
      fold w v k cj C x y = match slot x y with | some m => if cj ≤ m ∧ m < cj + k then out x y (v m) else C x y | none => C x y := by
  intro k
  induction k with
  | zero =>
    intro cj C _ x y
    rw [fold]
    cases slot x y with
    | none => rfl
    | some m => dsimp only; rw [if_neg (by omega)]
  | succ k ih =>
    intro cj C hcj x y
    rw [fold, ih (by omega) x y, hw cj hcj]
    cases h : slot x y with
    | none => dsimp only; rw [if_neg (by simp)]
    | some m =>
      dsimp only
      by_cases e : m = cj
      · subst e
        rw [if_neg (by omega), if_pos rfl, if_pos (by omega)]
      · rw [if_neg (c := some m = some cj) (by simpa using e)]
        by_cases h2 : cj + 1 ≤ m ∧ m < cj + 1 + k
        · rw [if_pos h2, if_pos (by omega)]
        · rw [if_neg h2, if_neg (by omega)]

theorem onSite_neg {d : Nat} {A : Site 𝕜} {o : Op 𝕜} {X : Nat → Nat → Nat → 𝕜} :
    (fun b b' => -close A (onSite d o X) b b') = close A (onSite d (fun s' s => -o s' s) X) := by
  funext b b'
  unfold close onSite
  rw [← sum_neg_distrib]
  refine sum_congr rfl fun a' _ => ?_
  rw [← sum_neg_distrib]
  refine sum_congr rfl fun s' _ => ?_
  rw [← neg_mul, ← sum_neg_distrib]
  refine congrArg (· * _) (sum_congr rfl fun s _ => ?_)
  ring

/-- The operator at the first site of a number above the diagonal. -/
def upOp (q : Input 𝕜) (d : Nat) (i : Int) : Op 𝕜 := if q.f2 then mulOp d (q.op1 i) (q.F i) else q.op1 i

/-- The operator at the first site of a number below the diagonal. -/
def lowOp (q : Input 𝕜) (d : Nat) (i : Int) : Op 𝕜 := if q.f1 then fun s' s => -mulOp d (q.op2 i) (q.F i) s' s else q.op2 i

/-- What `correlationMatrix` puts at a place. -/
def entry (q : Input 𝕜) (herm : Bool) (dd : Int → Nat) (N : Nat) (φ : (Int → Nat) → 𝕜) (i j : Int) : 𝕜 :=
  if i = j then val dd N φ fun k => if k = i then mulOp (dd i) (q.op1 i) (q.op2 i) else one
  else if i < j then val dd N φ (bond q.f2 q.F (upOp q (dd i) i) q.op2 i j)
  else if herm then (starRingEnd 𝕜) (val dd N φ (bond q.f2 q.F (upOp q (dd j) j) q.op2 j i))
  else val dd N φ (bond q.f1 q.F (lowOp q (dd j) j) q.op1 j i)

theorem siteLoop_eq {N : Nat} {dd : Int → Nat} {t : Int → Site 𝕜} (c : Chain N dd t) {q : Input 𝕜} {herm : Bool} {nrm2 : ℝ} {a : Int} (ha : 1 ≤ a)
    (hr : ∀ j : Int, a < j → j ≤ N → RO (t j)) : ∀ {k n ci : Nat} {L C : Nat → Nat → 𝕜}, a + ci = (n : Int) + 1 → n + k ≤ N → IsEnv t (fun _ => one) n L →
    (∀ x y, x < ci + k → y < ci + k → x < ci ∨ y < ci → C x y = entry q herm dd N (wave t N) (a + x) (a + y) / (nrm2 : 𝕜)) →
    ∀ x y, x < ci + k → y < ci + k →
      siteLoop q herm t nrm2 k ((n : Int) + 1) ci L C x y = entry q herm dd N (wave t N) (a + x) (a + y) / (nrm2 : 𝕜) := by
  intro k
  induction k with
  | zero =>
    intro n ci L C _ _ _ hC x y hx hy
    rw [siteLoop]
    exact hC x y hx hy (by omega)
  | succ k ih =>
    intro n ci L C hc hk hL hC x y hx hy
    have hd : (t ((n : Int) + 1)).d = dd (a + ci) := by rw [c.site _ (by omega) (by omega), hc]
    have env : ∀ f o, IsEnv t (strP f q.F o (a + ci)) (n + 1) (close (t ((n : Int) + 1)) (onSite (t ((n : Int) + 1)).d o (mulL (t ((n : Int) + 1)) L))) := by
      intro f o
      have h0 : IsEnv t (strP f q.F o (a + ci)) n L := hL.congr fun i i1 i2 s' _ s _ => by
        unfold strP
        rw [if_pos (by omega)]
      have := h0.step
      rwa [show strP f q.F o (a + ci) ((n : Int) + 1) = o by unfold strP; rw [if_neg (by omega), if_pos (by omega)]] at this
    have hdiag : total (t ((n : Int) + 1)) (onSite (t ((n : Int) + 1)).d
        (mulOp (t ((n : Int) + 1)).d (q.op1 ((n : Int) + 1)) (q.op2 ((n : Int) + 1))) (mulL (t ((n : Int) + 1)) L)) =
        entry q herm dd N (wave t N) (a + ci) (a + ci) := by
      unfold entry
      rw [if_pos rfl]
      have h0 : IsEnv t (fun k => if k = a + ci then mulOp (dd (a + ci)) (q.op1 (a + ci)) (q.op2 (a + ci)) else one) n L := hL.congr fun i i1 i2 s' _ s _ => by
        rw [if_neg (by omega)]
      rw [← total_eq c (j := N - (n + 1)) (by omega) h0 (fun x x1 x2 => hr x (by omega) x2) fun x x1 x2 s' _ s _ => by rw [if_neg (by omega)]]
      rw [if_pos (by omega), hc, hd, hc]
    rw [siteLoop]
    dsimp only
    have hup := fun (w : Nat → 𝕜 → (Nat → Nat → 𝕜) → Nat → Nat → 𝕜) C => rowLoop_eq c (o := q.op2) (nrm2 := nrm2) (w := w) (C := C) hr (i := a + ci) (by omega) (k := k) (n := n + 1) (cj := ci + 1)
      (by push_cast; omega) (by push_cast; omega) (by omega) (env q.f2 (upOp q (dd (a + ci)) (a + ci)))
    have hlow := fun (w : Nat → 𝕜 → (Nat → Nat → 𝕜) → Nat → Nat → 𝕜) C => rowLoop_eq c (o := q.op1) (nrm2 := nrm2) (w := w) (C := C) hr (i := a + ci) (by omega) (k := k) (n := n + 1) (cj := ci + 1)
      (by push_cast; omega) (by push_cast; omega) (by omega) (env q.f1 (lowOp q (dd (a + ci)) (a + ci)))
    push_cast at hup hlow
    have eup : (if q.f2 = true then mulOp (t ((n : Int) + 1)).d (q.op1 ((n : Int) + 1)) (q.F ((n : Int) + 1)) else q.op1 ((n : Int) + 1)) = upOp q (dd (a + ci)) (a + ci) := by
      unfold upOp
      rw [hd, hc]
    have elow : (if q.f1 = true then fun b b' => -close (t ((n : Int) + 1)) (onSite (t ((n : Int) + 1)).d
          (if q.f1 = true then mulOp (t ((n : Int) + 1)).d (q.op2 ((n : Int) + 1)) (q.F ((n : Int) + 1)) else q.op2 ((n : Int) + 1)) (mulL (t ((n : Int) + 1)) L)) b b'
        else close (t ((n : Int) + 1)) (onSite (t ((n : Int) + 1)).d
          (if q.f1 = true then mulOp (t ((n : Int) + 1)).d (q.op2 ((n : Int) + 1)) (q.F ((n : Int) + 1)) else q.op2 ((n : Int) + 1)) (mulL (t ((n : Int) + 1)) L))) =
        close (t ((n : Int) + 1)) (onSite (t ((n : Int) + 1)).d (lowOp q (dd (a + ci)) (a + ci)) (mulL (t ((n : Int) + 1)) L)) := by
      unfold lowOp
      rw [← hd, hc]
      by_cases hf : q.f1 = true
      · rw [if_pos hf, if_pos hf, if_pos hf, onSite_neg]
      · rw [if_neg hf, if_neg hf, if_neg hf]
    rw [eup, hup, elow, hlow]
    have hL' : IsEnv t (fun _ => one) (n + 1) (close (t ((n : Int) + 1)) (mulL (t ((n : Int) + 1)) L)) := by
      have := hL.step
      rwa [onSite_one] at this
    have key := ih (n := n + 1) (ci := ci + 1) (L := close (t ((n : Int) + 1)) (mulL (t ((n : Int) + 1)) L)) (by push_cast; omega) (by omega) hL'
      (C := ?_) ?_ x y (by omega) (by omega)
    · push_cast at key
      exact key
    · intro x y hx hy hxy
      have hold : ∀ v, x < ci ∨ y < ci → put C ci ci v x y = entry q herm dd N (wave t N) (a + x) (a + y) / (nrm2 : 𝕜) := by
        intro v h
        unfold put
        rw [if_neg (by omega)]
        exact hC x y (by omega) (by omega) h
      have hnew : x = ci → y = ci → put C ci ci (entry q herm dd N (wave t N) (a + ci) (a + ci) / (nrm2 : 𝕜)) x y =
          entry q herm dd N (wave t N) (a + x) (a + y) / (nrm2 : 𝕜) := by
        intro h1 h2
        subst h1 h2
        unfold put
        rw [if_pos ⟨rfl, rfl⟩]
      have eU : x = ci → ci < y → entry q herm dd N (wave t N) (a + x) (a + y) = val dd N (wave t N) (bond q.f2 q.F (upOp q (dd (a + ci)) (a + ci)) q.op2 (a + ci) (a + y)) := by
        intro h1 h2
        subst h1
        unfold entry
        rw [if_neg (by omega), if_pos (by omega)]
      rw [hdiag]
      by_cases hh : herm = true
      · simp only [hh, if_true]
        rw [fold_spec (ci := ci) (slot := fun x y => if x = ci ∧ ci < y then some y else if y = ci ∧ ci < x then some x else none)
          (out := fun x _ u => if x = ci then u else (starRingEnd 𝕜) u) _ (by omega)]
        · rw [hh] at hold hnew eU
          by_cases h1 : x = ci ∧ ci < y
          · rw [if_pos h1]
            dsimp only
            rw [if_pos (by omega), if_pos h1.1, eU h1.1 h1.2]
          · rw [if_neg h1]
            by_cases h2 : y = ci ∧ ci < x
            · rw [if_pos h2]
              dsimp only
              rw [if_pos (by omega), if_neg (by omega), map_div₀, RCLike.conj_ofReal]
              unfold entry
              rw [if_neg (by omega), if_neg (by omega), if_pos rfl, h2.1]
            · rw [if_neg h2]
              dsimp only
              rcases Nat.lt_or_ge x ci with h3 | h3
              · exact hold _ (Or.inl h3)
              · rcases Nat.lt_or_ge y ci with h4 | h4
                · exact hold _ (Or.inr h4)
                · exact hnew (by omega) (by omega)
        · intro m hm u C x y
          unfold put
          by_cases h1 : x = ci ∧ ci < y
          · rw [if_pos h1, if_neg (by omega)]
            by_cases h2 : y = m
            · rw [if_pos ⟨h1.1, h2⟩, if_pos (by rw [h2]), if_pos h1.1]
            · rw [if_neg (by omega), if_neg (by simpa using h2)]
          · rw [if_neg h1]
            by_cases h2 : y = ci ∧ ci < x
            · rw [if_pos h2]
              by_cases h3 : x = m
              · rw [if_pos ⟨h3, h2.1⟩, if_pos (by rw [h3]), if_neg (by omega)]
              · rw [if_neg (by omega), if_neg (by omega), if_neg (by simpa using h3)]
            · rw [if_neg h2, if_neg (by omega), if_neg (by omega), if_neg (by simp)]
      · have hh' : herm = false := by simpa using hh
        simp only [hh', Bool.false_eq_true, if_false]
        rw [hh'] at hold hnew eU
        rw [fold_spec (ci := ci) (slot := fun x y => if y = ci ∧ ci < x then some x else none) (out := fun _ _ u => u) _ (by omega)]
        · by_cases h2 : y = ci ∧ ci < x
          · rw [if_pos h2]
            dsimp only
            rw [if_pos (by omega)]
            unfold entry
            rw [if_neg (by omega), if_neg (by omega), if_neg (by simp), h2.1]
          · rw [if_neg h2]
            dsimp only
            rw [fold_spec (ci := ci) (slot := fun x y => if x = ci ∧ ci < y then some y else none) (out := fun _ _ u => u) _ (by omega)]
            · by_cases h1 : x = ci ∧ ci < y
              · rw [if_pos h1]
                dsimp only
                rw [if_pos (by omega), eU h1.1 h1.2]
              · rw [if_neg h1]
                dsimp only
                rcases Nat.lt_or_ge x ci with h3 | h3
                · exact hold _ (Or.inl h3)
                · rcases Nat.lt_or_ge y ci with h4 | h4
                  · exact hold _ (Or.inr h4)
                  · exact hnew (by omega) (by omega)
            · intro m hm u C x y
              unfold put
              by_cases h1 : x = ci ∧ ci < y
              · rw [if_pos h1]
                by_cases h2 : y = m
                · rw [if_pos ⟨h1.1, h2⟩, if_pos (by rw [h2])]
                · rw [if_neg (by omega), if_neg (by simpa using h2)]
              · rw [if_neg h1, if_neg (by omega), if_neg (by simp)]
        · intro m hm u C x y
          unfold put
          by_cases h1 : y = ci ∧ ci < x
          · rw [if_pos h1]
            by_cases h2 : x = m
            · rw [if_pos ⟨h2, h1.1⟩, if_pos (by rw [h2])]
            · rw [if_neg (by omega), if_neg (by simpa using h2)]
          · rw [if_neg h1, if_neg (by omega), if_neg (by simp)]

end Verif.Correl
