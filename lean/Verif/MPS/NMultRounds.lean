import Verif.MPS.NMultSpec

/-! # The rounds of `nmultMPO` -/

noncomputable section

namespace Verif.NMult

open Finset Verif.Limits Verif.SvdBond Matrix
open Verif.DmrgNum hiding Tools

variable {𝕜 : Type*} [RCLike 𝕜]

/-! ## A tensor decomposed -/

theorem Iso.norm1 {ι : Type*} {d : Int → ℕ} {t : Int → Site 𝕜} {k m j N : ℕ} (h : Iso d t k m) (hN : k + (j + 1) = N) (S : Finset ι) (E : ℕ → ℕ → ι → 𝕜)
    (R : ι → (Int → ℕ) → 𝕜) (hR : ∀ i, TL (k + 1) (R i)) :
    normSq d N (emb t k m fun p κ => ∑ i ∈ S, E p (κ ((k : Int) + 1)) i * R i κ) =
      ∑ s ∈ range (d ((k : Int) + 1)), ∑ p ∈ range m, sumTail d (k + 1) j (fun ρ => ‖∑ i ∈ S, E p s i * R i ρ‖ ^ 2) fun _ => 0 := by
  rw [h.norm hN fun p κ κ' hκ => sum_congr rfl fun i _ => by rw [hκ _ (by omega), hR i κ κ' fun x hx => hκ x (by push_cast at hx; omega)], sumTail_first, sumTail_add]
  refine sum_congr rfl fun s _ => ?_
  rw [sumTail_add]
  refine sum_congr rfl fun p _ => sumTail_congr fun κ _ _ => ?_
  rw [Function.update_self]
  congr 2
  refine sum_congr rfl fun i _ => ?_
  rw [hR i _ κ fun x hx => Function.update_of_ne (by push_cast at hx; omega) _ _]

theorem Iso.orth1 {ι : Type*} {d : Int → ℕ} {t : Int → Site 𝕜} {k m j N n : ℕ} (h : Iso d t k m) (hN : k + (j + 1) = N) (S : Finset ι) (E : ℕ → ℕ → ι → 𝕜)
    (R : ι → (Int → ℕ) → 𝕜) (hR : ∀ i, TL (k + 1) (R i)) (Q : ℕ → ℕ → ℕ → 𝕜) (Z : ℕ → (Int → ℕ) → 𝕜) (hZ : ∀ q, TL (k + 1) (Z q))
    (h0 : ∀ q < n, ∀ i ∈ S, ∑ s ∈ range (d ((k : Int) + 1)), ∑ p ∈ range m, (starRingEnd 𝕜) (Q p s q) * E p s i = 0) :
    NMult.ip d N (emb t k m fun p κ => ∑ q ∈ range n, Q p (κ ((k : Int) + 1)) q * Z q κ) (emb t k m fun p κ => ∑ i ∈ S, E p (κ ((k : Int) + 1)) i * R i κ) = 0 := by
  rw [h.ip hN (fun p κ κ' hκ => sum_congr rfl fun i _ => by rw [hκ _ (by omega), hZ i κ κ' fun x hx => hκ x (by push_cast at hx; omega)])
    (fun p κ κ' hκ => sum_congr rfl fun i _ => by rw [hκ _ (by omega), hR i κ κ' fun x hx => hκ x (by push_cast at hx; omega)]), sumTail_first]
  refine (sumTail_congr fun κ _ _ => ?_).trans (sumTail_zero d (k + 1) j fun _ => 0)
  have e : ∀ s p, (starRingEnd 𝕜) (∑ q ∈ range n, Q p (Function.update κ ((k : Int) + 1) s ((k : Int) + 1)) q * Z q (Function.update κ ((k : Int) + 1) s)) *
      ∑ i ∈ S, E p (Function.update κ ((k : Int) + 1) s ((k : Int) + 1)) i * R i (Function.update κ ((k : Int) + 1) s) =
      ∑ q ∈ range n, ∑ i ∈ S, (starRingEnd 𝕜) (Z q κ) * R i κ * ((starRingEnd 𝕜) (Q p s q) * E p s i) := by
    intro s p
    rw [map_sum, sum_mul_sum]
    refine sum_congr rfl fun q _ => sum_congr rfl fun i _ => ?_
    rw [Function.update_self, hR i _ κ fun x hx => Function.update_of_ne (by push_cast at hx; omega) _ _,
      hZ q _ κ fun x hx => Function.update_of_ne (by push_cast at hx; omega) _ _, map_mul]
    ring
  simp only [e]
  calc _ = ∑ s ∈ range (d ((k : Int) + 1)), ∑ q ∈ range n, ∑ p ∈ range m, ∑ i ∈ S, (starRingEnd 𝕜) (Z q κ) * R i κ * ((starRingEnd 𝕜) (Q p s q) * E p s i) :=
        sum_congr rfl fun _ _ => sum_comm
    _ = ∑ q ∈ range n, ∑ s ∈ range (d ((k : Int) + 1)), ∑ i ∈ S, ∑ p ∈ range m, (starRingEnd 𝕜) (Z q κ) * R i κ * ((starRingEnd 𝕜) (Q p s q) * E p s i) := by
        rw [sum_comm]
        exact sum_congr rfl fun _ _ => sum_congr rfl fun _ _ => sum_comm
    _ = ∑ q ∈ range n, ∑ i ∈ S, (starRingEnd 𝕜) (Z q κ) * R i κ * ∑ s ∈ range (d ((k : Int) + 1)), ∑ p ∈ range m, (starRingEnd 𝕜) (Q p s q) * E p s i := by
        refine sum_congr rfl fun q _ => ?_
        rw [sum_comm]
        refine sum_congr rfl fun i _ => ?_
        simp only [mul_sum]
    _ = 0 := sum_eq_zero fun q hq => sum_eq_zero fun i hi => by rw [h0 q (by simpa using hq) i hi, mul_zero]

/-! ## What holds after each round -/

/-- The first `k` tensors fit, with `m` for the dimension of the last link. -/
def Seg (d : Int → ℕ) (t : Int → Site 𝕜) : ℕ → ℕ → Prop
  | 0, m => m = 1
  | k + 1, m => Seg d t k (t (k + 1)).l ∧ (t (k + 1)).r = m ∧ 1 ≤ m ∧ (t (k + 1)).d = d (k + 1) ∧ ∀ a s b, d (k + 1) ≤ s → (t (k + 1)).A a s b = 0

theorem Seg.congr {d : Int → ℕ} {t t' : Int → Site 𝕜} : ∀ {k m : ℕ}, (∀ i : Int, 1 ≤ i → i ≤ k → t i = t' i) → Seg d t k m → Seg d t' k m := by
  intro k
  induction k with
  | zero => intro m _ h; exact h
  | succ k ih =>
    intro m h hs
    have e := h ((k : Int) + 1) (by omega) (by push_cast; omega)
    obtain ⟨h1, h2, h3, h4, h5⟩ := hs
    rw [e] at h1 h2 h4 h5
    exact ⟨ih (fun i i1 i2 => h i i1 (by push_cast; omega)) h1, h2, h3, h4, h5⟩

theorem Iso.congr {d : Int → ℕ} {t t' : Int → Site 𝕜} {k m : ℕ} (h : ∀ i : Int, 1 ≤ i → i ≤ k → t i = t' i) (hi : Iso d t k m) : Iso d t' k m := by
  intro ρ p hp p' hp'
  rw [← hi ρ p hp p' hp']
  refine sumCfg_congr fun σ _ _ => ?_
  rw [TEvol.amp_congr (t' := t') (σ' := σ) fun i h1 h2 => ⟨h i h1 h2, rfl⟩]

/-- The product after `k` rounds, with the tensors of the first `k` sites cut off. -/
def rest (dm dt : Int → ℕ) (A B : Int → Site 𝕜) (N k : ℕ) (nf : ℕ → ℕ → ℕ → 𝕜) (p : ℕ) (κ : Int → ℕ) : 𝕜 :=
  ∑ a ∈ range (A (k + 1)).l, ∑ b ∈ range (B (k + 1)).l, nf p a b * renv dm dt A B (N - k) k κ a b

/-- The product after `k` rounds. -/
def now (dm dt : Int → ℕ) (A B : Int → Site 𝕜) (N k : ℕ) (s : St 𝕜) : (Int → ℕ) → 𝕜 := emb s.res.t k s.m (rest dm dt A B N k s.nf)

theorem rest_TL (dm dt : Int → ℕ) (A B : Int → Site 𝕜) (N k : ℕ) (nf : ℕ → ℕ → ℕ → 𝕜) (p : ℕ) : TL k (rest dm dt A B N k nf p) := fun κ κ' h =>
  sum_congr rfl fun a _ => sum_congr rfl fun b _ => congrArg (nf p a b * ·) (renv_TL dm dt A B _ k a b κ κ' h)

theorem rest_clust (dm dt : Int → ℕ) (A B : Int → Site 𝕜) {N k j : ℕ} (hk : N - k = j + 1) (nf : ℕ → ℕ → ℕ → 𝕜) (p : ℕ) (κ : Int → ℕ) : rest dm dt A B N k nf p κ =
    ∑ i ∈ range (A (k + 1)).r ×ˢ range (B (k + 1)).r, clust (dm (k + 1)) (dt (k + 1)) (A (k + 1)) (B (k + 1)) nf p (κ (k + 1)) i.1 i.2 * renv dm dt A B j (k + 1) κ i.1 i.2 := by
  rw [Finset.sum_product]
  simp only [rest, hk, renv, clust_eq, mul_sum, sum_mul]
  rw [sum4]
  exact sum_congr rfl fun _ _ => sum_congr rfl fun _ _ => sum_congr rfl fun _ _ => sum_congr rfl fun _ _ => by ring

/-- Nothing is kept only if there is nothing. -/
def Keeps (o : Opts) : Prop := o.doTrunc = false ∨ o.Std ∧ (o.maxdim = none ∨ o.respect = false)

/-- Nothing is discarded. -/
def Whole (o : Opts) : Prop := o.doTrunc = false ∨ o.Std ∧ o.maxdim = none ∧ o.c = 0

/-- What is discarded is within the cutoff. -/
def Cuts (o : Opts) : Prop := o.Std ∧ o.maxdim = none

/-- The two operators. -/
structure Pair (N : ℕ) (d dm dt : Int → ℕ) (A B : Int → Site 𝕜) : Prop where
  len : 2 ≤ N
  left : ∃ da, Chain N da A
  right : ∃ db, Chain N db B
  site : ∀ i : Int, 1 ≤ i → i ≤ N → 1 ≤ d i

/-- The invariant. -/
structure Inv (o : Opts) (N : ℕ) (d dm dt : Int → ℕ) (A B : Int → Site 𝕜) (k : ℕ) (s : St 𝕜) : Prop where
  len : s.res.N = N
  left : s.res.l = 0
  right : s.res.r = k + 2
  pos : 1 ≤ s.m
  seg : Seg d s.res.t k s.m
  out : ∀ i : Int, ¬ (1 ≤ i ∧ i ≤ N) → s.res.t i = ⟨0, 0, 0, fun _ _ _ => 0⟩
  iso : Iso d s.res.t k s.m
  orth : ∀ Z, (∀ p, TL k (Z p)) → ip d N (emb s.res.t k s.m Z) (fun κ => prodOp dm dt A B N κ - now dm dt A B N k s κ) = 0
  cut : Cuts o → ∀ q, 0 ≤ q → Cond d dm dt A B N q → normSq d N (fun κ => prodOp dm dt A B N κ - now dm dt A B N k s κ) ≤ k * (q * o.c * normSq d N (prodOp dm dt A B N))
  all : Whole o → TEvol.Eqv d N (now dm dt A B N k s) (prodOp dm dt A B N)

theorem denmat_pos {C : Type*} [Fintype C] {T : Tools 𝕜} {o : Opts} (ho : Keeps o) {a b : ℕ} (hab : 1 ≤ a * b) {M : Matrix (Fin a × Fin b) C 𝕜} {k : ℕ}
    {Q : Matrix (Fin a × Fin b) (Fin k) 𝕜} {N : Matrix (Fin k) C 𝕜} (h : denmat (P := Empty) T o M none = .ok ⟨k, Q, N⟩) (hd : Dec True o M o.noise (none : Option (Matrix _ Empty 𝕜)) k Q N) : 1 ≤ k := by
  rcases ho with ho | ⟨hs, hm | hr⟩
  · unfold denmat keepD at h
    rw [if_neg (by omega), ho] at h
    simp only [Bool.false_eq_true, if_false, Res.map] at h
    injection h with h
    have := congrArg Sigma.fst h
    dsimp only at this
    omega
  · exact (hd.cut hs (.inr ⟨trivial, hm⟩)).1
  · exact (hd.best hs hr).1

theorem normSq_sub_comm (d : Int → ℕ) (N : ℕ) (f g : (Int → ℕ) → 𝕜) : normSq d N (fun κ => f κ - g κ) = normSq d N fun κ => g κ - f κ := by
  simp only [normSq, norm_sub_rev]

/-- A projection does not make it longer. -/
theorem normSq_proj {d : Int → ℕ} {N : ℕ} {f g : (Int → ℕ) → 𝕜} (h : ip d N f (fun κ => g κ - f κ) = 0) :
    normSq d N g = normSq d N f + normSq d N (fun κ => g κ - f κ) := by
  rw [← pyth h]
  congr 1
  funext κ
  ring

theorem normSq_nonneg (d : Int → ℕ) (N : ℕ) (f : (Int → ℕ) → 𝕜) : 0 ≤ normSq d N f := by
  have := SumNum.sumCfg_mono (dd := d) (F := fun _ => 0) (G := fun σ => ‖f σ‖ ^ 2) (fun σ => by positivity) N fun _ => 0
  have e : sumCfg d N (fun _ => (0 : ℝ)) (fun _ => 0) = 0 := by
    have := sumCfg_mul (dd := d) (0 : ℝ) (fun _ => 0) N fun _ => 0
    simpa using this
  rw [e] at this
  exact this

/-- The site with the vectors `Q`. -/
def siteOf {m D n : ℕ} (Q : Matrix (Fin m × Fin D) (Fin n) 𝕜) : Site 𝕜 :=
  ⟨m, D, n, fun p κ q => if h : p < m ∧ κ < D ∧ q < n then Q (⟨p, h.1⟩, ⟨κ, h.2.1⟩) ⟨q, h.2.2⟩ else 0⟩

/-- The elements of a matrix. -/
def el {m D x y : ℕ} (M : Matrix (Fin m × Fin D) (Fin x × Fin y) 𝕜) (p κ : ℕ) (i : ℕ × ℕ) : 𝕜 :=
  if h : (p < m ∧ κ < D) ∧ i.1 < x ∧ i.2 < y then M (⟨p, h.1.1⟩, ⟨κ, h.1.2⟩) (⟨i.1, h.2.1⟩, ⟨i.2, h.2.2⟩) else 0

theorem fro_el {m D x y : ℕ} (M : Matrix (Fin m × Fin D) (Fin x × Fin y) 𝕜) :
    fro M = ∑ s ∈ range D, ∑ p ∈ range m, ∑ i ∈ range x ×ˢ range y, ‖el M p s i‖ ^ 2 := by
  rw [fro, Fintype.sum_prod_type, sum_comm, Finset.sum_range]
  refine sum_congr rfl fun s _ => ?_
  rw [Finset.sum_range]
  refine sum_congr rfl fun p _ => ?_
  rw [Fintype.sum_prod_type, Finset.sum_product, Finset.sum_range]
  refine sum_congr rfl fun a _ => ?_
  rw [Finset.sum_range]
  refine sum_congr rfl fun b _ => ?_
  rw [el, dif_pos ⟨⟨p.2, s.2⟩, a.2, b.2⟩]

theorem LO_siteOf {m D n : ℕ} {Q : Matrix (Fin m × Fin D) (Fin n) 𝕜} (h : Qᴴ * Q = 1) : LO (siteOf Q) := by
  intro c' hc' c hc
  have e := congrFun (congrFun h ⟨c', hc'⟩) ⟨c, hc⟩
  rw [Matrix.mul_apply, Matrix.one_apply, Fintype.sum_prod_type] at e
  change ∑ a ∈ range m, ∑ s ∈ range D, _ = _
  rw [Finset.sum_range]
  refine Eq.trans (sum_congr rfl fun a _ => ?_) (e.trans (by simp [Fin.ext_iff]))
  rw [Finset.sum_range]
  refine sum_congr rfl fun s _ => ?_
  change (starRingEnd 𝕜) (dite _ _ _) * dite _ _ _ = _
  rw [dif_pos ⟨a.2, s.2, hc'⟩, dif_pos ⟨a.2, s.2, hc⟩]
  rfl

/-- The discarded part is orthogonal to what is kept. -/
theorem orth_el {m D x y n : ℕ} {Q : Matrix (Fin m × Fin D) (Fin n) 𝕜} (h : Qᴴ * Q = 1) (M : Matrix (Fin m × Fin D) (Fin x × Fin y) 𝕜) :
    ∀ q < n, ∀ i ∈ range x ×ˢ range y, ∑ s ∈ range D, ∑ p ∈ range m, (starRingEnd 𝕜) ((siteOf Q).A p s q) * el (M - Q * (Qᴴ * M)) p s i = 0 := by
  intro q hq i hi
  have hi' : i.1 < x ∧ i.2 < y := by simpa using hi
  have e : Qᴴ * (M - Q * (Qᴴ * M)) = 0 := by
    rw [Matrix.mul_sub, ← Matrix.mul_assoc, h, Matrix.one_mul, sub_self]
  have e2 := congrFun (congrFun e ⟨q, hq⟩) (⟨i.1, hi'.1⟩, ⟨i.2, hi'.2⟩)
  rw [Matrix.mul_apply, Fintype.sum_prod_type, sum_comm] at e2
  rw [Finset.sum_range]
  refine Eq.trans (sum_congr rfl fun s _ => ?_) e2
  rw [Finset.sum_range]
  refine sum_congr rfl fun p _ => ?_
  rw [el, dif_pos ⟨⟨p.2, s.2⟩, hi'⟩]
  change (starRingEnd 𝕜) (dite _ _ _) * _ = _
  rw [dif_pos ⟨p.2, s.2, hq⟩]
  rfl

/-- A round. -/
theorem Inv.step {T : Tools 𝕜} (hT : T.Right) {o : Opts} (hM : ∀ m, o.maxdim = some m → 1 ≤ m) (hmin : 1 ≤ o.mindim) (hc : ∀ c, o.cutoff = some c → 0 ≤ c) (hk : Keeps o)
    {N : ℕ} {d dm dt : Int → ℕ} {A B : Int → Site 𝕜} (hp : Pair N d dm dt A B) {k : ℕ} (hkN : k + 3 ≤ N) {s : St 𝕜} (h : Inv o N d dm dt A B k s) :
    ∃ s', NMult.step T o d dm dt A B (k + 1) s = .ok s' ∧ Inv o N d dm dt A B (k + 1) s' := by
  have hab : 1 ≤ s.m * d ((k : Int) + 1) := Nat.mul_pos h.pos (hp.site _ (by omega) (by omega))
  obtain ⟨n, Q, V, hden, hdec⟩ := denmat_spec (P := Empty) hT hM hmin hc hab
    (Matrix.of fun (p : Fin s.m × Fin (d ((k : Int) + 1))) (q : Fin (A ((k : Int) + 1)).r × Fin (B ((k : Int) + 1)).r) => clust (dm ((k : Int) + 1)) (dt ((k : Int) + 1)) (A ((k : Int) + 1)) (B ((k : Int) + 1)) s.nf p.1 p.2 q.1 q.2) none
  set M : Matrix (Fin s.m × Fin (d ((k : Int) + 1))) (Fin (A ((k : Int) + 1)).r × Fin (B ((k : Int) + 1)).r) 𝕜 :=
    Matrix.of fun p q => clust (dm ((k : Int) + 1)) (dt ((k : Int) + 1)) (A ((k : Int) + 1)) (B ((k : Int) + 1)) s.nf p.1 p.2 q.1 q.2 with hMdef
  have hn : 1 ≤ n := denmat_pos hk hab hden hdec
  let nf' : ℕ → ℕ → ℕ → 𝕜 := fun q c e => if h : q < n ∧ c < (A ((k : Int) + 1)).r ∧ e < (B ((k : Int) + 1)).r then V ⟨q, h.1⟩ (⟨c, h.2.1⟩, ⟨e, h.2.2⟩) else 0
  let res' : MPS (Site 𝕜) := ⟨s.res.N, Function.update s.res.t ((k : Int) + 1) (siteOf Q), 0, (k : Int) + 3⟩
  have hstep : NMult.step T o d dm dt A B ((k : Int) + 1) s = .ok ⟨n, nf', res'⟩ := by
    unfold NMult.step
    dsimp only
    rw [← hMdef, hden]
    simp only [Res.bind, Limits.set, Limits.ref, h.len, h.left, h.right]
    rw [if_neg (show ¬ ((k : Int) + 1 < 0) by omega), if_pos (show 0 ≤ (k : Int) + 1 ∧ (k : Int) + 1 < N + 2 by omega)]
    dsimp only
    rw [if_neg (show ¬ ((k : Int) + 1 + 1 < 0) by omega), if_pos (show 0 ≤ (k : Int) + 1 + 1 ∧ (k : Int) + 1 + 1 < N + 2 by omega)]
    dsimp only
    congr 2
    change _ = (⟨s.res.N, _, _, _⟩ : MPS (Site 𝕜))
    congr 1
    all_goals first | exact h.len.symm | (split_ifs <;> omega)
  refine ⟨_, hstep, ?_⟩
  -- the sites before are the same
  have hsame : ∀ i : Int, 1 ≤ i → i ≤ k → s.res.t i = res'.t i := fun i _ h2 => (Function.update_of_ne (by omega) _ _).symm
  have hthis : res'.t ((k : Int) + 1) = siteOf Q := Function.update_self _ _ _
  have hiso : Iso d res'.t k s.m := h.iso.congr hsame
  -- the product before and after
  let R : ℕ × ℕ → (Int → ℕ) → 𝕜 := fun i κ => renv dm dt A B (N - (k + 1)) (k + 1) κ i.1 i.2
  have hR : ∀ i, TL (k + 1) (R i) := fun i => renv_TL dm dt A B _ _ _ _
  let S := range (A ((k : Int) + 1)).r ×ˢ range (B ((k : Int) + 1)).r
  have hj : N - k = (N - (k + 1)) + 1 := by omega
  have hN : k + ((N - (k + 1)) + 1) = N := by omega
  have ha : TEvol.Eqv d N (now dm dt A B N k s) (emb s.res.t k s.m fun p κ => ∑ i ∈ S, el M p (κ ((k : Int) + 1)) i * R i κ) := by
    intro κ hκ
    rw [now, emb, emb]
    refine sum_congr rfl fun p hp' => ?_
    rw [rest_clust dm dt A B hj]
    congr 1
    refine sum_congr rfl fun i hi => ?_
    have hi' : i.1 < (A ((k : Int) + 1)).r ∧ i.2 < (B ((k : Int) + 1)).r := by simpa [S] using hi
    rw [el, dif_pos ⟨⟨by simpa using hp', hκ _ (by omega) (by omega)⟩, hi'⟩]
    rfl
  have hlA : (A ((k : Int) + 1)).r = (A (((k + 1 : ℕ) : Int) + 1)).l := by
    obtain ⟨da, hA⟩ := hp.left
    push_cast
    exact hA.link _ (by omega) (by omega)
  have hlB : (B ((k : Int) + 1)).r = (B (((k + 1 : ℕ) : Int) + 1)).l := by
    obtain ⟨da, hB⟩ := hp.right
    push_cast
    exact hB.link _ (by omega) (by omega)
  have hb : ∀ κ, now dm dt A B N (k + 1) ⟨n, nf', res'⟩ κ = emb s.res.t k s.m (fun p κ => ∑ q ∈ range n, (siteOf Q).A p (κ ((k : Int) + 1)) q * rest dm dt A B N (k + 1) nf' q κ) κ := by
    intro κ
    rw [now, emb_succ, hthis, emb_congr hsame]
    rfl
  have hrest : ∀ q < n, ∀ κ, rest dm dt A B N (k + 1) nf' q κ = ∑ i ∈ S, nf' q i.1 i.2 * R i κ := by
    intro q _ κ
    rw [rest, Finset.sum_product, hlA, hlB]
  have hE : TEvol.Eqv d N (fun κ => now dm dt A B N k s κ - now dm dt A B N (k + 1) ⟨n, nf', res'⟩ κ)
      (emb s.res.t k s.m fun p κ => ∑ i ∈ S, el (M - Q * V) p (κ ((k : Int) + 1)) i * R i κ) := by
    intro κ hκ
    dsimp only
    rw [ha κ hκ, hb, emb_sub, emb, emb]
    refine sum_congr rfl fun p hp' => ?_
    congr 1
    have e1 : ∑ q ∈ range n, (siteOf Q).A p (κ ((k : Int) + 1)) q * rest dm dt A B N (k + 1) nf' q κ =
        ∑ i ∈ S, ∑ q ∈ range n, (siteOf Q).A p (κ ((k : Int) + 1)) q * (nf' q i.1 i.2 * R i κ) := by
      rw [sum_comm]
      exact sum_congr rfl fun q hq => by rw [hrest q (by simpa using hq) κ, mul_sum]
    rw [e1, ← sum_sub_distrib]
    refine sum_congr rfl fun i hi => ?_
    have hi' : i.1 < (A ((k : Int) + 1)).r ∧ i.2 < (B ((k : Int) + 1)).r := by simpa [S] using hi
    have hd' : κ ((k : Int) + 1) < d ((k : Int) + 1) := hκ _ (by omega) (by omega)
    have hp'' : p < s.m := by simpa using hp'
    rw [el, el, dif_pos ⟨⟨hp'', hd'⟩, hi'⟩, dif_pos ⟨⟨hp'', hd'⟩, hi'⟩, Matrix.sub_apply, Matrix.mul_apply, sub_mul, sum_mul, Finset.sum_range]
    congr 1
    refine sum_congr rfl fun q _ => ?_
    change dite _ _ _ * (dite _ _ _ * _) = _
    rw [dif_pos ⟨hp'', hd', q.2⟩, dif_pos ⟨q.2, hi'⟩, mul_assoc]
  have hV : V = Qᴴ * M := hdec.proj
  have hor : ∀ Z : ℕ → (Int → ℕ) → 𝕜, (∀ q, TL (k + 1) (Z q)) →
      ip d N (emb res'.t (k + 1) n Z) (fun κ => now dm dt A B N k s κ - now dm dt A B N (k + 1) ⟨n, nf', res'⟩ κ) = 0 := by
    intro Z hZ
    have e1 : emb res'.t (k + 1) n Z = emb s.res.t k s.m (fun p κ => ∑ q ∈ range n, (siteOf Q).A p (κ ((k : Int) + 1)) q * Z q κ) := by
      funext κ
      rw [emb_succ, hthis, emb_congr hsame]
      rfl
    rw [ip_congr (fun _ _ => rfl) hE, e1]
    refine h.iso.orth1 hN S _ R hR _ Z hZ ?_
    rw [hV]
    exact orth_el hdec.orth M
  have hor2 : ∀ Z : ℕ → (Int → ℕ) → 𝕜, (∀ q, TL (k + 1) (Z q)) → ip d N (emb res'.t (k + 1) n Z) (fun κ => prodOp dm dt A B N κ - now dm dt A B N k s κ) = 0 := by
    intro Z hZ
    have e1 : emb res'.t (k + 1) n Z = emb s.res.t k s.m (fun p κ => ∑ q ∈ range n, (siteOf Q).A p (κ ((k : Int) + 1)) q * Z q κ) := by
      funext κ
      rw [emb_succ, hthis, emb_congr hsame]
      rfl
    rw [e1]
    exact h.orth _ fun p κ κ' hκ => sum_congr rfl fun q _ => by rw [hκ _ (by omega), hZ q κ κ' fun x hx => hκ x (by push_cast at hx; omega)]
  have hadd : (fun κ => prodOp dm dt A B N κ - now dm dt A B N (k + 1) ⟨n, nf', res'⟩ κ) =
      fun κ => (prodOp dm dt A B N κ - now dm dt A B N k s κ) + (now dm dt A B N k s κ - now dm dt A B N (k + 1) ⟨n, nf', res'⟩ κ) := by
    funext κ
    ring
  refine ⟨h.len, rfl, by push_cast; ring, hn, ?_, ?_, ?_, ?_, ?_, ?_⟩
  · refine ⟨?_, ?_, hn, ?_, ?_⟩
    · rw [hthis]
      exact h.seg.congr hsame
    · rw [hthis]; rfl
    · rw [hthis]; rfl
    · rw [hthis]
      intro a x b hx
      exact dif_neg fun hh => by omega
  · intro i hi
    change Function.update _ _ _ i = _
    rw [Function.update_of_ne (by omega)]
    exact h.out i hi
  · have : Iso d res'.t (k + 1) (res'.t ((k : Int) + 1)).r := by
      refine Iso.step ?_ (by rw [hthis]; rfl) (by rw [hthis]; exact LO_siteOf hdec.orth)
      rw [hthis]
      exact hiso
    rw [hthis] at this
    exact this
  · intro Z hZ
    rw [hadd, ip_add, hor2 Z hZ, hor Z hZ, add_zero]
  · intro hcu q hq hcond
    rw [hadd]
    have hDemb : ip d N (fun κ => now dm dt A B N k s κ - now dm dt A B N (k + 1) ⟨n, nf', res'⟩ κ) (fun κ => prodOp dm dt A B N κ - now dm dt A B N k s κ) = 0 := by
      rw [ip_congr hE fun _ _ => rfl]
      exact h.orth _ fun p κ κ' hκ => sum_congr rfl fun i _ => by rw [hκ _ (by omega), hR i κ κ' fun x hx => hκ x (by push_cast at hx; omega)]
    have hpy : ip d N (fun κ => prodOp dm dt A B N κ - now dm dt A B N k s κ) (fun κ => now dm dt A B N k s κ - now dm dt A B N (k + 1) ⟨n, nf', res'⟩ κ) = 0 := by
      rw [ip_swap, hDemb, map_zero]
    rw [pyth hpy]
    obtain ⟨lo, hlo, hb⟩ := hcond (k + 1) (by omega) (by omega)
    have hn1 : ∀ E : Matrix (Fin s.m × Fin (d ((k : Int) + 1))) (Fin (A ((k : Int) + 1)).r × Fin (B ((k : Int) + 1)).r) 𝕜,
        lo * fro E ≤ normSq d N (emb s.res.t k s.m fun p κ => ∑ i ∈ S, el E p (κ ((k : Int) + 1)) i * R i κ) ∧
        normSq d N (emb s.res.t k s.m fun p κ => ∑ i ∈ S, el E p (κ ((k : Int) + 1)) i * R i κ) ≤ q * lo * fro E := by
      intro E
      rw [h.iso.norm1 hN S _ R hR, fro_el, mul_sum, mul_sum]
      have hb' : ∀ x p, lo * ∑ i ∈ S, ‖el E p x i‖ ^ 2 ≤ sumTail d (k + 1) (N - (k + 1)) (fun ρ => ‖∑ i ∈ S, el E p x i * R i ρ‖ ^ 2) (fun _ => 0) ∧
          sumTail d (k + 1) (N - (k + 1)) (fun ρ => ‖∑ i ∈ S, el E p x i * R i ρ‖ ^ 2) (fun _ => 0) ≤ q * lo * ∑ i ∈ S, ‖el E p x i‖ ^ 2 := by
        intro x p
        have := hb fun c e => el E p x (c, e)
        dsimp only [envSq] at this
        push_cast at this
        simp only [S, Finset.sum_product, R]
        exact this
      constructor
      · refine sum_le_sum fun x _ => ?_
        rw [mul_sum]
        exact sum_le_sum fun p _ => (hb' x p).1
      · refine sum_le_sum fun x _ => ?_
        rw [mul_sum]
        exact sum_le_sum fun p _ => (hb' x p).2
    have h1 := (hn1 (M - Q * V)).2
    have h2 := (hn1 M).1
    have h3 : fro (M - Q * V) ≤ o.c * fro M := by
      have := (hdec.cut hcu.1 (.inr ⟨trivial, hcu.2⟩)).2
      rw [weight, noisePart, add_zero] at this
      exact this
    have hcc : 0 ≤ o.c := by
      unfold Opts.c
      cases hcc : o.cutoff with
      | none => simp
      | some c => exact hc c hcc
    have h4 : normSq d N (now dm dt A B N k s) ≤ normSq d N (prodOp dm dt A B N) := by
      rw [normSq_proj (h.orth _ fun p => rest_TL dm dt A B N k s.nf p)]
      exact le_add_of_nonneg_right (normSq_nonneg _ _ _)
    rw [TEvol.normSq_eqv ha] at h4
    rw [TEvol.normSq_eqv hE]
    have h5 := h.cut hcu q hq hcond
    have h6 : q * lo * fro (M - Q * V) ≤ q * o.c * normSq d N (prodOp dm dt A B N) := by
      calc q * lo * fro (M - Q * V) ≤ q * lo * (o.c * fro M) := mul_le_mul_of_nonneg_left h3 (by positivity)
        _ = q * o.c * (lo * fro M) := by ring
        _ ≤ _ := mul_le_mul_of_nonneg_left (h2.trans h4) (by positivity)
    push_cast
    linarith
  · intro hw
    have hz : M - Q * V = 0 := by
      rcases hw with hw | ⟨hs, hm, hc0⟩
      · rw [hdec.all hw, sub_self]
      · refine fro_eq_zero ?_
        have := (hdec.cut hs (.inr ⟨trivial, hm⟩)).2
        rwa [hc0, zero_mul] at this
    intro κ hκ
    rw [← h.all hw κ hκ]
    have := hE κ hκ
    rw [hz] at this
    dsimp only at this
    rw [emb, sum_eq_zero, sub_eq_zero] at this
    · exact this.symm
    · intro p _
      rw [sum_eq_zero, mul_zero]
      intro i _
      rw [el]
      split <;> simp

end Verif.NMult
