import Verif.MPS.NMultRounds

/-! # C97: `nmultMPO` returns the product within the cutoff -/

noncomputable section

namespace Verif.NMult

open Finset Verif.Limits Verif.SvdBond Matrix
open Verif.DmrgNum hiding Tools

variable {𝕜 : Type*} [RCLike 𝕜]

/-! ## The rounds -/

theorem rounds_ok {T : Tools 𝕜} (hT : T.Right) {o : Opts} (hM : ∀ m, o.maxdim = some m → 1 ≤ m) (hmin : 1 ≤ o.mindim) (hc : ∀ c, o.cutoff = some c → 0 ≤ c) (hk : Keeps o)
    {N : ℕ} {d dm dt : Int → ℕ} {A : MPS (Site 𝕜)} {B : Int → Site 𝕜} (hp : Pair N d dm dt A.t B) (hN : A.N = N) (hl : A.l = 0) (hr : A.r = 2) :
    ∀ k : ℕ, k + 2 ≤ N → ∃ s, rounds T o d dm dt A B k = .ok s ∧ Inv o N d dm dt A.t B k s := by
  intro k
  induction k with
  | zero =>
    intro _
    have h2 := hp.len
    refine ⟨⟨1, fun _ _ _ => 1, ⟨A.N, fun i => if 1 ≤ i ∧ i ≤ A.N then A.t i else ⟨0, 0, 0, fun _ _ _ => 0⟩, 0, 2⟩⟩, ?_, ?_⟩
    · rw [rounds, Limits.ref]
      simp only [hl, hr]
      rw [if_neg (show ¬ ((1 : Int) < 0) by omega), if_pos (show (0 : Int) ≤ 1 ∧ (1 : Int) < A.N + 2 by omega)]
      simp [Res.map]
    · have e : ∀ κ, now dm dt A.t B N 0 ⟨1, fun _ _ _ => 1, ⟨A.N, fun i => if 1 ≤ i ∧ i ≤ A.N then A.t i else ⟨0, 0, 0, fun _ _ _ => 0⟩, 0, 2⟩⟩ κ = prodOp dm dt A.t B N κ := by
        intro κ
        obtain ⟨da, hA⟩ := hp.left
        obtain ⟨db, hB⟩ := hp.right
        rw [← prod_first (by omega) hA hB]
        simp [now, emb, rest, amp, hA.first, hB.first]
      have e2 : (fun κ => prodOp dm dt A.t B N κ - now dm dt A.t B N 0 ⟨1, fun _ _ _ => 1, ⟨A.N, fun i => if 1 ≤ i ∧ i ≤ A.N then A.t i else ⟨0, 0, 0, fun _ _ _ => 0⟩, 0, 2⟩⟩ κ) = fun _ => 0 := by
        funext κ
        rw [e, sub_self]
      have e3 : ∀ f : (Int → ℕ) → 𝕜, ip d N f (fun _ => 0) = 0 := by
        intro f
        have := sumCfg_mul (dd := d) (0 : 𝕜) (fun _ => 0) N fun _ => 0
        unfold ip
        simpa using this
      refine ⟨hN, rfl, rfl, le_rfl, rfl, ?_, iso_zero _ _, ?_, ?_, ?_⟩
      · intro i hi
        dsimp only
        rw [if_neg (by omega)]
      · intro Z _
        rw [e2, e3]
      · intro _ q _ _
        rw [e2]
        have := ip_self d N fun _ => (0 : 𝕜)
        rw [e3] at this
        have : normSq d N (fun _ => (0 : 𝕜)) = 0 := by exact_mod_cast this.symm
        rw [this]
        simp
      · exact fun _ κ _ => e κ
  | succ k ih =>
    intro h
    obtain ⟨s, h1, h2⟩ := ih (by omega)
    obtain ⟨s', h3, h4⟩ := h2.step hT hM hmin hc hk hp (by omega)
    refine ⟨s', ?_, h4⟩
    rw [rounds, h1]
    exact h3

/-! ## The last two sites -/

theorem tail2 {K : Type*} [AddCommMonoid K] (d : Int → ℕ) (n m : ℕ) (f : ℕ → ℕ → ℕ → K) :
    sumTail d n 2 (fun ρ => ∑ p ∈ range m, f p (ρ ((n : Int) + 1)) (ρ ((n : Int) + 1 + 1))) (fun _ => 0) =
      ∑ i : Pl m (d ((n : Int) + 1)) (d ((n : Int) + 1 + 1)) 1, f i.1 i.2.1 i.2.2.1 := by
  simp only [sumTail]
  push_cast
  rw [SvdBond.sum_pl]
  simp only [Fintype.sum_prod_type]
  simp only [Fin.sum_univ_one, add_zero]
  have e : ∀ x y, Function.update (Function.update (fun _ : Int => 0) ((n : Int) + 1 + 1) x) ((n : Int) + 1) y ((n : Int) + 1 + 1) = x := fun x y => by
    rw [Function.update_of_ne (by omega), Function.update_self]
  simp only [Function.update_self, e]
  calc _ = ∑ x ∈ range (d ((n : Int) + 1 + 1)), ∑ p ∈ range m, ∑ y ∈ range (d ((n : Int) + 1)), f p y x := sum_congr rfl fun _ _ => sum_comm
    _ = ∑ p ∈ range m, ∑ y ∈ range (d ((n : Int) + 1)), ∑ x ∈ range (d ((n : Int) + 1 + 1)), f p y x := by
        rw [sum_comm]
        exact sum_congr rfl fun _ _ => sum_comm
    _ = _ := by
        rw [Finset.sum_range]
        refine sum_congr rfl fun p _ => ?_
        rw [Finset.sum_range]
        refine sum_congr rfl fun y _ => ?_
        rw [Finset.sum_range]

/-- A function of the last two sites with the product of the others. -/
def emb2 (t : Int → Site 𝕜) (n m : ℕ) (f : ℕ → ℕ → ℕ → 𝕜) : (Int → ℕ) → 𝕜 := emb t n m fun p κ => f p (κ ((n : Int) + 1)) (κ ((n : Int) + 1 + 1))

omit [RCLike 𝕜] in
theorem tl2 (n : ℕ) (f : ℕ → ℕ → ℕ → 𝕜) (p : ℕ) : TL n fun κ : Int → ℕ => f p (κ ((n : Int) + 1)) (κ ((n : Int) + 1 + 1)) := fun κ κ' h => by
  dsimp only
  rw [h _ (by omega), h _ (by omega)]

theorem ip_emb2 {d : Int → ℕ} {t : Int → Site 𝕜} {n m : ℕ} (h : Iso d t n m) (f g : ℕ → ℕ → ℕ → 𝕜) : ip d (n + 2) (emb2 t n m f) (emb2 t n m g) =
    ∑ i : Pl m (d ((n : Int) + 1)) (d ((n : Int) + 1 + 1)) 1, (starRingEnd 𝕜) (f i.1 i.2.1 i.2.2.1) * g i.1 i.2.1 i.2.2.1 := by
  rw [emb2, emb2, h.ip rfl (tl2 n f) (tl2 n g)]
  exact tail2 d n m fun p x y => (starRingEnd 𝕜) (f p x y) * g p x y

theorem norm_emb2 {d : Int → ℕ} {t : Int → Site 𝕜} {n m : ℕ} (h : Iso d t n m) (f : ℕ → ℕ → ℕ → 𝕜) : normSq d (n + 2) (emb2 t n m f) =
    ∑ i : Pl m (d ((n : Int) + 1)) (d ((n : Int) + 1 + 1)) 1, ‖f i.1 i.2.1 i.2.2.1‖ ^ 2 := by
  rw [emb2, h.norm rfl (tl2 n f)]
  exact tail2 d n m fun p x y => ‖f p x y‖ ^ 2

/-- The elements of the last product. -/
def blockF (dm dt : Int → ℕ) (A B : Int → Site 𝕜) (n : ℕ) (s : St 𝕜) (p x y : ℕ) : 𝕜 :=
  clust (dm (n + 1 + 1)) (dt (n + 1 + 1)) (A (n + 1 + 1)) (B (n + 1 + 1))
    (fun _ c e => clust (dm (n + 1)) (dt (n + 1)) (A (n + 1)) (B (n + 1)) s.nf p x c e) 0 y 0 0

theorem now_block {n : ℕ} {d dm dt : Int → ℕ} {A B : Int → Site 𝕜} (hp : Pair (n + 2) d dm dt A B) (s : St 𝕜) :
    now dm dt A B (n + 2) n s = emb2 s.res.t n s.m (blockF dm dt A B n s) := by
  obtain ⟨da, hA⟩ := hp.left
  obtain ⟨db, hB⟩ := hp.right
  have lA := hA.link ((n : Int) + 1) (by omega) (by push_cast; omega)
  have lB := hB.link ((n : Int) + 1) (by omega) (by push_cast; omega)
  have rA := hA.last
  have rB := hB.last
  push_cast at rA rB
  have e0 : (n : Int) + 1 + 1 = (n : Int) + 2 := by ring
  funext κ
  rw [now, emb2, emb, emb]
  refine sum_congr rfl fun p _ => ?_
  rw [rest_clust dm dt A B (j := 1) (by omega), Finset.sum_product, blockF, clust_eq, lA, lB]
  congr 1
  refine sum_congr rfl fun c _ => sum_congr rfl fun e _ => ?_
  congr 1
  simp only [renv]
  push_cast
  rw [e0, rA, rB]
  simp

theorem Seg.pos {d : Int → ℕ} {t : Int → Site 𝕜} : ∀ {k m : ℕ}, Seg d t k m → 1 ≤ m := by
  intro k m h
  cases k with
  | zero => exact le_of_eq h.symm
  | succ k => exact h.2.2.1

theorem Seg.facts {d : Int → ℕ} {t : Int → Site 𝕜} : ∀ {k m : ℕ}, Seg d t k m →
    (∀ i : ℕ, i < k → (t (i + 1)).d = d (i + 1) ∧ 1 ≤ (t (i + 1)).l ∧ (∀ a s b, d (i + 1) ≤ s → (t (i + 1)).A a s b = 0)) ∧
    (∀ i : ℕ, i + 1 < k → (t (i + 1)).r = (t (i + 1 + 1)).l) ∧ (∀ k', k = k' + 1 → (t 1).l = 1 ∧ (t (k' + 1)).r = m) := by
  intro k
  induction k with
  | zero => intro m _; exact ⟨fun i hi => absurd hi (by omega), fun i hi => absurd hi (by omega), fun k' hk => absurd hk (by omega)⟩
  | succ k ih =>
    intro m ⟨h1, h2, h3, h4, h5⟩
    obtain ⟨g1, g2, g3⟩ := ih h1
    refine ⟨fun i hi => ?_, fun i hi => ?_, fun k' hk => ?_⟩
    · by_cases e : i = k
      · subst e
        exact ⟨h4, h1.pos, h5⟩
      · exact g1 i (by omega)
    · by_cases e : i + 1 = k
      · subst e
        exact (g3 i rfl).2
      · exact g2 i (by omega)
    · obtain rfl : k = k' := by omega
      refine ⟨?_, h2⟩
      cases k with
      | zero => exact (show (t (((0 : ℕ) : Int) + 1)).l = 1 from h1)
      | succ k => exact (g3 k rfl).1

/-- The tensors with the last two replaced. -/
theorem state_of {n : ℕ} {d : Int → ℕ} {t : Int → Site 𝕜} {m : ℕ} (h : Seg d t n m) (hd : ∀ i : Int, 1 ≤ i → i ≤ (n + 2 : ℕ) → 1 ≤ d i)
    (out : ∀ i : Int, ¬ (1 ≤ i ∧ i ≤ (n + 2 : ℕ)) → t i = ⟨0, 0, 0, fun _ _ _ => 0⟩) {p : Site 𝕜 × Site 𝕜}
    (hs : p.1.l = m ∧ p.1.d = d ((n : Int) + 1) ∧ p.1.r = p.2.l ∧ p.2.d = d ((n : Int) + 1 + 1) ∧ p.2.r = 1) (hr : 1 ≤ p.1.r)
    (s1 : ∀ a s b, d ((n : Int) + 1) ≤ s → p.1.A a s b = 0) (s2 : ∀ a s b, d ((n : Int) + 1 + 1) ≤ s → p.2.A a s b = 0) (l r : Int) :
    let psi : MPS (Site 𝕜) := ⟨n + 2, Function.update (Function.update t ((n : Int) + 1) p.1) ((n : Int) + 1 + 1) p.2, l, r⟩
    Orthog.State psi ∧ Chain (n + 2) d psi.t := by
  intro psi
  obtain ⟨f1, f2, f3⟩ := h.facts
  have t2 : psi.t ((n : Int) + 1 + 1) = p.2 := Function.update_self _ _ _
  have t1 : psi.t ((n : Int) + 1) = p.1 := (Function.update_of_ne (by omega) _ _).trans (Function.update_self _ _ _)
  have t0 : ∀ i : Int, i ≤ n → psi.t i = t i := fun i hi => (Function.update_of_ne (by omega) _ _).trans (Function.update_of_ne (by omega) _ _)
  have t0' : ∀ i : Int, (n : Int) + 1 + 1 < i → psi.t i = t i := fun i hi => (Function.update_of_ne (by omega) _ _).trans (Function.update_of_ne (by omega) _ _)
  have hcases : ∀ i : Int, 1 ≤ i → i ≤ (n + 2 : ℕ) → (∃ j : ℕ, j < n ∧ i = (j : Int) + 1) ∨ i = (n : Int) + 1 ∨ i = (n : Int) + 1 + 1 := by
    intro i h1 h2
    push_cast at h2
    by_cases hi : i ≤ n
    · exact .inl ⟨(i - 1).toNat, by omega, by omega⟩
    · omega
  have hsite : ∀ i : Int, 1 ≤ i → i ≤ (n + 2 : ℕ) → (psi.t i).d = d i := by
    intro i h1 h2
    rcases hcases i h1 h2 with ⟨j, hj, rfl⟩ | rfl | rfl
    · rw [t0 _ (by omega)]; exact (f1 j hj).1
    · rw [t1]; exact hs.2.1
    · rw [t2]; exact hs.2.2.2.1
  have hfirst : (psi.t 1).l = 1 := by
    cases n with
    | zero =>
      have : psi.t 1 = p.1 := t1
      rw [this, hs.1]
      exact h
    | succ n =>
      rw [t0 _ (by push_cast; omega)]
      exact (f3 n rfl).1
  have hlast : (psi.t ((n + 2 : ℕ) : Int)).r = 1 := by
    have e : ((n + 2 : ℕ) : Int) = (n : Int) + 1 + 1 := by push_cast; ring
    rw [e, t2]
    exact hs.2.2.2.2
  have hlink : ∀ i : Int, 1 ≤ i → i < (n + 2 : ℕ) → (psi.t i).r = (psi.t (i + 1)).l := by
    intro i h1 h2
    rcases hcases i h1 (by omega) with ⟨j, hj, rfl⟩ | rfl | rfl
    · rw [t0 _ (by omega)]
      by_cases e : j + 1 = n
      · have e' : (j : Int) + 1 + 1 = (n : Int) + 1 := by omega
        rw [e', t1, hs.1]
        exact (f3 j e.symm).2
      · rw [t0 _ (by omega)]
        exact f2 j (by omega)
    · rw [t1, t2]; exact hs.2.2.1
    · push_cast at h2; omega
  refine ⟨⟨show 2 ≤ n + 2 by omega, ⟨hfirst, hlast, fun _ _ _ => rfl, hlink⟩, ?_, ?_, ?_⟩, ⟨hfirst, hlast, hsite, hlink⟩⟩
  · intro i a s b hsb
    by_cases hi : 1 ≤ i ∧ i ≤ (n + 2 : ℕ)
    · rw [hsite i hi.1 hi.2] at hsb
      rcases hcases i hi.1 hi.2 with ⟨j, hj, rfl⟩ | rfl | rfl
      · rw [t0 _ (by omega)]; exact (f1 j hj).2.2 a s b hsb
      · rw [t1]; exact s1 a s b hsb
      · rw [t2]; exact s2 a s b hsb
    · have : psi.t i = t i := by
        push_cast at hi
        by_cases h' : i ≤ n
        · exact t0 i h'
        · exact t0' i (by omega)
      rw [this, out i hi]
  · intro i h1 h2
    rcases hcases i (by omega) h2 with ⟨j, hj, rfl⟩ | rfl | rfl
    · rw [t0 _ (by omega)]; exact (f1 j hj).2.1
    · rw [t1, hs.1]; exact h.pos
    · rw [t2, ← hs.2.2.1]; exact hr
  · intro i h1 h2
    rw [hsite i h1 h2]
    exact hd i h1 h2

/-- A factorization has tensors that are zero where there is nothing, and a link if there is no truncation. -/
theorem split_supp {T : Tools 𝕜} {o : Opts} (hu : useSvd o) {l d₁ d₂ : ℕ} {y : Block 𝕜 l d₁ d₂ 1} {p : Site 𝕜 × Site 𝕜} (h : split T o none .right l d₁ d₂ 1 y = .ok p) :
    (∀ a s b, d₁ ≤ s → p.1.A a s b = 0) ∧ (∀ a s b, d₂ ≤ s → p.2.A a s b = 0) ∧ (o.doTrunc = false → p.1.r = min (l * d₁) (d₂ * 1)) := by
  unfold split at h
  rw [if_pos hu] at h
  cases hb : bySvd T o .right (toMat y) with
  | throw => rw [hb] at h; cases h
  | ub => rw [hb] at h; cases h
  | ok q =>
    rw [hb] at h
    simp only [Res.map] at h
    injection h with h
    subst h
    refine ⟨fun a s b hs => dif_neg fun hh => by omega, fun a s b hs => dif_neg fun hh => by omega, fun hd => ?_⟩
    unfold bySvd at hb
    split_ifs at hb with hno
    simp only [keepS, hd, Bool.false_eq_true, if_false, Res.bind] at hb
    cases hcut : cutD o (T.svd l d₁ d₂ 1 (toMat y)).2.1 (min (l * d₁) (d₂ * 1)) with
    | throw => rw [hcut] at hb; cases hb
    | ub => rw [hcut] at hb; cases hb
    | ok D =>
      rw [hcut] at hb
      simp only [Res.map] at hb
      injection hb with hb
      rw [← hb]
      rfl

theorem amp_two' {t : Int → Site 𝕜} {n : ℕ} {a b : Site 𝕜} (h1 : t ((n : Int) + 1) = a) (h2 : t ((n : Int) + 1 + 1) = b) (h : a.r = b.l) (κ : Int → ℕ) (c : ℕ) :
    amp t (n + 2) κ c = ∑ x ∈ range a.l, amp t n κ x * bval a b x (κ ((n : Int) + 1)) (κ ((n : Int) + 1 + 1)) c := by
  subst h1 h2
  exact TEvol.amp_two t n κ h c

/-- The options are such that something is kept at each site; `D` is the dimension of the last site. -/
def Fine (o : Opts) (D : ℕ) : Prop := o.doTrunc = false ∨ o.Std ∧ (o.respect = false ∨ o.maxdim = none ∧ D ≤ 5000)

theorem Fine.keeps {o : Opts} {D : ℕ} (h : Fine o D) : Keeps o := h.imp_right fun ⟨a, b⟩ => ⟨a, b.elim .inr fun b => .inl b.1⟩

/-- Everything before `orthogonalize`. -/
theorem core {T : Tools 𝕜} (hT : T.Right) {o : Opts} (ho : o.Ok) (hn : o.norml = false) (hu : useSvd o) {n : ℕ} {d dm dt : Int → ℕ} (hf : Fine o (d ((n : Int) + 1 + 1)))
    {A B : Int → Site 𝕜} (hp : Pair (n + 2) d dm dt A B) {s : St 𝕜} (h : Inv o (n + 2) d dm dt A B n s) :
    ∃ p, last T o s.m (d (n + 1)) (d (n + 1 + 1)) (block d dm dt A B n s) = .ok p ∧ ∃ psi, svdBond s.res (n + 1) p .right = .ok psi ∧
      Orthog.State psi ∧ psi.N = n + 2 ∧ Chain (n + 2) d psi.t ∧
      ip d (n + 2) (wave psi.t (n + 2)) (fun κ => now dm dt A B (n + 2) n s κ - wave psi.t (n + 2) κ) = 0 ∧
      ip d (n + 2) (wave psi.t (n + 2)) (fun κ => prodOp dm dt A B (n + 2) κ - wave psi.t (n + 2) κ) = 0 ∧
      (Whole o → (o.doTrunc = false ∨ d ((n : Int) + 1 + 1) ≤ 5000) → TEvol.Eqv d (n + 2) (wave psi.t (n + 2)) (prodOp dm dt A B (n + 2))) ∧
      (Cuts o → d ((n : Int) + 1 + 1) ≤ 5000 → ∀ q, 0 ≤ q → Cond d dm dt A B (n + 2) q →
        normSq d (n + 2) (fun κ => prodOp dm dt A B (n + 2) κ - wave psi.t (n + 2) κ) ≤ (n * q + 1) * (o.c * normSq d (n + 2) (prodOp dm dt A B (n + 2)))) := by
  have d1 := hp.site ((n : Int) + 1) (by omega) (by push_cast; omega)
  have d2 := hp.site ((n : Int) + 1 + 1) (by omega) (by push_cast; omega)
  have hab : 1 ≤ s.m * d ((n : Int) + 1) := Nat.mul_pos h.pos d1
  have hcd : 1 ≤ d ((n : Int) + 1 + 1) * 1 := by omega
  set y := block d dm dt A B n s with hy
  obtain ⟨p, hsp, hg⟩ := C96_split_partial hT ho hn none .right hab hcd y
  obtain ⟨s1, s2, s3⟩ := split_supp hu hsp
  have hM : o.maxdim = none → o.M = 5000 := fun e => by rw [Opts.M, e]; rfl
  have hhalf : half Dir.right s.m (d ((n : Int) + 1)) (d ((n : Int) + 1 + 1)) 1 = d ((n : Int) + 1 + 1) := Nat.mul_one _
  have hr : 1 ≤ p.1.r := by
    rcases hf with hf | ⟨hs, hr | ⟨hm, hd⟩⟩
    · rw [s3 hf]
      exact Nat.le_min.2 ⟨hab, hcd⟩
    · exact (hg.best hs (.inl rfl) hr).1
    · exact (hg.cut hs (.inl (by rw [hhalf, hM hm]; exact hd))).1
  have hlast : last T o s.m (d (n + 1)) (d (n + 1 + 1)) y = .ok p := by
    rw [last, if_pos hu]
    exact hsp
  refine ⟨p, hlast, ⟨n + 2, Function.update (Function.update s.res.t ((n : Int) + 1) p.1) ((n : Int) + 1 + 1) p.2, 0, (n : Int) + 1 + 1⟩, ?_, ?_⟩
  · rw [svdBond, if_neg (by simp), if_neg (by rw [h.right]; omega), if_neg (by rw [h.len]; push_cast; omega)]
    simp only [set2, h.len, h.left]
    rw [if_neg (by omega)]
  obtain ⟨hst, hch⟩ := state_of h.seg hp.site h.out hg.shape.fits hr s1 s2 0 ((n : Int) + 1 + 1)
  refine ⟨hst, rfl, hch, ?_⟩
  set t' : Int → Site 𝕜 := Function.update (Function.update s.res.t ((n : Int) + 1) p.1) ((n : Int) + 1 + 1) p.2 with ht'
  have t2 : t' ((n : Int) + 1 + 1) = p.2 := Function.update_self _ _ _
  have t1 : t' ((n : Int) + 1) = p.1 := (Function.update_of_ne (by omega) _ _).trans (Function.update_self _ _ _)
  have hw : wave t' (n + 2) = emb2 s.res.t n s.m fun a x z => bval p.1 p.2 a x z 0 := by
    funext κ
    rw [wave, amp_two' t1 t2 hg.shape.fits.2.2.1, emb2, emb, hg.shape.fits.1]
    refine sum_congr rfl fun a _ => ?_
    rw [TEvol.amp_congr (t := t') (t' := s.res.t) (σ := κ) (σ' := κ) (n := n) fun i _ h2 => ⟨(Function.update_of_ne (by omega) _ _).trans (Function.update_of_ne (by omega) _ _), rfl⟩]
  have hnow := now_block hp s
  have hyi : ∀ i : Pl s.m (d ((n : Int) + 1)) (d ((n : Int) + 1 + 1)) 1, y i = blockF dm dt A B n s i.1 i.2.1 i.2.2.1 := fun _ => rfl
  have hpi : ∀ i : Pl s.m (d ((n : Int) + 1)) (d ((n : Int) + 1 + 1)) 1, prodOf p i = bval p.1 p.2 i.1 i.2.1 i.2.2.1 0 := fun i => by
    rw [prodOf]
    congr 1
    exact Nat.lt_one_iff.1 i.2.2.2.2
  have hdiff : (fun κ => now dm dt A B (n + 2) n s κ - wave t' (n + 2) κ) = emb2 s.res.t n s.m fun a x z => blockF dm dt A B n s a x z - bval p.1 p.2 a x z 0 := by
    funext κ
    rw [hnow, hw, emb2, emb2, emb_sub]
    rfl
  have hadd : (fun κ => prodOp dm dt A B (n + 2) κ - wave t' (n + 2) κ) =
      fun κ => (prodOp dm dt A B (n + 2) κ - now dm dt A B (n + 2) n s κ) + (now dm dt A B (n + 2) n s κ - wave t' (n + 2) κ) := by
    funext κ
    ring
  have herr : normSq d (n + 2) (fun κ => now dm dt A B (n + 2) n s κ - wave t' (n + 2) κ) = err y p := by
    rw [hdiff, norm_emb2 h.iso, err]
    refine sum_congr rfl fun i _ => ?_
    rw [hyi, hpi, norm_sub_rev]
  have hpr : ip d (n + 2) (wave t' (n + 2)) (fun κ => now dm dt A B (n + 2) n s κ - wave t' (n + 2) κ) = 0 := by
    rw [hdiff, hw, ip_emb2 h.iso]
    refine Eq.trans (sum_congr rfl fun i _ => ?_) hg.proj
    rw [hyi, hpi]
  refine ⟨hpr, ?_, ?_, ?_⟩
  · change ip d (n + 2) (wave t' (n + 2)) (fun κ => prodOp dm dt A B (n + 2) κ - wave t' (n + 2) κ) = 0
    have e1 : ip d (n + 2) (emb2 s.res.t n s.m fun a x z => bval p.1 p.2 a x z 0) (fun κ => prodOp dm dt A B (n + 2) κ - now dm dt A B (n + 2) n s κ) = 0 := h.orth (fun a κ => bval p.1 p.2 a (κ ((n : Int) + 1)) (κ ((n : Int) + 1 + 1)) 0) (tl2 n fun a x z => bval p.1 p.2 a x z 0)
    rw [hadd, ip_add, hpr, hw, e1, zero_add]
  · intro hwh hd κ hκ
    have hz : ∀ i, prodOf p i = y i := by
      rcases hwh with hwh | ⟨hs, hm, hc0⟩
      · exact hg.all hwh
      · rcases hd with hd | hd
        · exact hg.all hd
        · have := (hg.cut hs (.inl (by rw [hhalf, hM hm]; exact hd))).2
          rw [hc0, zero_mul] at this
          intro i
          have h0 := (Finset.sum_eq_zero_iff_of_nonneg (fun i _ => by positivity)).1 (le_antisymm this (sum_nonneg fun i _ => by positivity)) i (mem_univ _)
          rw [sq_eq_zero_iff, norm_eq_zero, sub_eq_zero] at h0
          exact h0
    change wave t' (n + 2) κ = _
    rw [← h.all hwh κ hκ, hnow, hw, emb2, emb2, emb, emb]
    refine sum_congr rfl fun a ha => ?_
    have k1 : κ ((n : Int) + 1) < d ((n : Int) + 1) := hκ _ (by omega) (by push_cast; omega)
    have k2 : κ ((n : Int) + 1 + 1) < d ((n : Int) + 1 + 1) := hκ _ (by omega) (by push_cast; omega)
    have := hz (⟨a, by simpa using ha⟩, ⟨_, k1⟩, ⟨_, k2⟩, 0)
    rw [hyi, hpi] at this
    rw [this]
  · intro hcu hd q hq hcond
    change normSq d (n + 2) (fun κ => prodOp dm dt A B (n + 2) κ - wave t' (n + 2) κ) ≤ _
    rw [hadd]
    have hpy : ip d (n + 2) (fun κ => prodOp dm dt A B (n + 2) κ - now dm dt A B (n + 2) n s κ) (fun κ => now dm dt A B (n + 2) n s κ - wave t' (n + 2) κ) = 0 := by
      rw [ip_swap, hdiff]
      have e1 := h.orth (fun a κ => blockF dm dt A B n s a (κ ((n : Int) + 1)) (κ ((n : Int) + 1 + 1)) - bval p.1 p.2 a (κ ((n : Int) + 1)) (κ ((n : Int) + 1 + 1)) 0)
        (tl2 n fun a x z => blockF dm dt A B n s a x z - bval p.1 p.2 a x z 0)
      rw [emb2, e1, map_zero]
    rw [pyth hpy, herr]
    have h1 := h.cut hcu q hq hcond
    have h2 := (hg.cut hcu.1 (.inl (by rw [hhalf, hM hcu.2]; exact hd))).2
    have h3 : ‖y‖ ^ 2 = normSq d (n + 2) (now dm dt A B (n + 2) n s) := by
      rw [hnow, norm_emb2 h.iso, EuclideanSpace.norm_sq_eq]
      rfl
    have h4 : normSq d (n + 2) (now dm dt A B (n + 2) n s) ≤ normSq d (n + 2) (prodOp dm dt A B (n + 2)) := by
      rw [normSq_proj (h.orth _ fun p => rest_TL dm dt A B (n + 2) n s.nf p)]
      exact le_add_of_nonneg_right (normSq_nonneg _ _ _)
    have hcc : 0 ≤ o.c := by
      unfold Opts.c
      cases hcc : o.cutoff with
      | none => simp
      | some c => exact ho.cutoff c hcc
    have h5 : err y p ≤ o.c * normSq d (n + 2) (prodOp dm dt A B (n + 2)) := by
      refine h2.trans (mul_le_mul_of_nonneg_left ?_ hcc)
      rw [noiseSq, add_zero, h3]
      exact h4
    calc _ ≤ (n : ℝ) * (q * o.c * normSq d (n + 2) (prodOp dm dt A B (n + 2))) + o.c * normSq d (n + 2) (prodOp dm dt A B (n + 2)) := add_le_add h1 h5
      _ = _ := by ring

/-! ## The theorem -/

/-- The arguments of `nmultMPO`: two operators of the same length whose tensors fit, with the orthogonality that their limits claim. -/
structure Given (G : Ops (Site 𝕜)) (ds dm dt : Int → ℕ) (A B : MPS (Site 𝕜)) : Prop where
  same : A.N = B.N
  len : 2 ≤ A.N
  soundA : Sound G LO RO A
  soundB : Sound G LO RO B
  chainA : Chain A.N (fun i => ds i * dm i) A.t
  chainB : Chain A.N (fun i => dm i * dt i) B.t
  siteA : ∀ i : Int, 1 ≤ i → i ≤ A.N → 1 ≤ ds i
  siteB : ∀ i : Int, 1 ≤ i → i ≤ A.N → 1 ≤ dt i

/-- The product depends only on the elements of the operators. -/
theorem prodOp_congr {N : ℕ} {ds dm dt : Int → ℕ} (ht : ∀ i : Int, 1 ≤ i → i ≤ N → 1 ≤ dt i) {A A' B B' : Int → Site 𝕜} (hA : TEvol.Eqv (fun i => ds i * dm i) N (wave A N) (wave A' N))
    (hB : TEvol.Eqv (fun i => dm i * dt i) N (wave B N) (wave B' N)) : TEvol.Eqv (fun i => ds i * dt i) N (prodOp dm dt A B N) (prodOp dm dt A' B' N) := by
  intro κ hκ
  refine sumCfg_congr fun x hx _ => ?_
  rw [hA, hB]
  · intro i h1 h2
    have := hx i h1 h2
    have h3 : κ i % dt i < dt i := Nat.mod_lt _ (ht i h1 h2)
    calc x i * dt i + κ i % dt i < x i * dt i + dt i := by omega
      _ = (x i + 1) * dt i := by ring
      _ ≤ dm i * dt i := Nat.mul_le_mul_right _ this
  · intro i h1 h2
    have := hx i h1 h2
    have h3 : κ i / dt i < ds i := Nat.div_lt_of_lt_mul ((hκ i h1 h2).trans_eq (Nat.mul_comm _ _))
    calc κ i / dt i * dm i + x i < κ i / dt i * dm i + dm i := by omega
      _ = (κ i / dt i + 1) * dm i := by ring
      _ ≤ ds i * dm i := Nat.mul_le_mul_right _ h3

/-- What happens up to the last bond. -/
theorem start {G : Ops (Site 𝕜)} (hG : GaugeOK G) {T : Tools 𝕜} (hT : T.Right) {o : Opts} (ho : (withDefaults o).Ok) (hk : Keeps (withDefaults o)) {ds dm dt : Int → ℕ} {A B : MPS (Site 𝕜)} (h : Given G ds dm dt A B) :
    ∃ A' B' n s, position G A 1 = .ok A' ∧ position G B 1 = .ok B' ∧ A.N = n + 2 ∧ B'.N = n + 2 ∧ Pair (n + 2) (fun i => ds i * dt i) dm dt A'.t B'.t ∧
      TEvol.Eqv (fun i => ds i * dt i) (n + 2) (prodOp dm dt A'.t B'.t (n + 2)) (prodOp dm dt A.t B.t (n + 2)) ∧
      rounds T (withDefaults o) (fun i => ds i * dt i) dm dt A' B'.t n = .ok s ∧ Inv (withDefaults o) (n + 2) (fun i => ds i * dt i) dm dt A'.t B'.t n s := by
  have h2 := h.len
  obtain ⟨A', a1, -, a3, a4, a5, a6, a7⟩ := TEvol.position_wave hG h.soundA h.chainA (i := 1) le_rfl (by omega)
  have hcB := h.chainB
  rw [h.same] at hcB
  obtain ⟨B', b1, -, b3, -, -, b6, b7⟩ := TEvol.position_wave hG h.soundB hcB (i := 1) le_rfl (by have := h.same; omega)
  rw [← h.same] at b3 b6 b7
  obtain ⟨n, hn⟩ : ∃ n, A.N = n + 2 := ⟨A.N - 2, by omega⟩
  have sA := h.siteA
  have sB := h.siteB
  rw [hn] at a3 a6 a7 b3 b6 b7 sA sB
  have hp : Pair (n + 2) (fun i => ds i * dt i) dm dt A'.t B'.t := ⟨by omega, ⟨_, a6⟩, ⟨_, b6⟩, fun i h1 h2 => Nat.mul_pos (sA i h1 h2) (sB i h1 h2)⟩
  obtain ⟨s, r1, r2⟩ := rounds_ok (A := A') (B := B'.t) hT ho.maxdim ho.mindim ho.cutoff hk hp a3 (by rw [a4]; rfl) (by rw [a5]; rfl) n (by omega)
  exact ⟨A', B', n, s, a1, b1, hn, b3, hp, prodOp_congr sB a7 b7, r1, r2⟩

open Verif.SumNum (len rel) in
/-- **C97 (partial).** `nmultMPO` of two operators, where the method at the last bond is `svd` (`UseSVD`, or no noise and a cutoff below `1E-12`), without normalization, and options
with which something is kept: it returns an operator with its centre at site 1, not longer than the product. If nothing is discarded before, it is the product up to what
`orthogonalize` discards with its cutoff of `1E-13`. With a cutoff `c` and no `MaxDim` the distance is bounded by that and by `√(((N-2)q + 1)c)`, where `q` says how far the tensors on the right
are from being orthogonal together. Missing: other methods at the last bond and one site end with an error (`C97_cutoff_counterexample`, `C97_one_counterexample`); without `q` the cutoff says
nothing (`C97_lost_counterexample`). -/
theorem C97_product_partial {G : Ops (Site 𝕜)} (hG : GaugeOK G) {T : Tools 𝕜} (hT : T.Right) {T' : ApplyMPO.Tools 𝕜} (hT' : ApplyMPO.EigOK T') {o : Opts} (ho : (withDefaults o).Ok)
    (hn : o.norml = false) (hu : useSvd (withDefaults o)) {ds dm dt : Int → ℕ} {A B : MPS (Site 𝕜)} (h : Given G ds dm dt A B) (hf : Fine (withDefaults o) (ds A.N * dt A.N)) :
    let d : Int → ℕ := fun i => ds i * dt i
    let N := A.N
    let P := prodOp dm dt A.t B.t N
    ∃ R, nmult G T T' o d dm dt A B = .ok R ∧ SumNum.Summed N d R ∧ len d N (wave R.t N) ≤ len d N P ∧
      (Whole (withDefaults o) → (o.trunc = some false ∨ d N ≤ 5000) → len d N (fun κ => wave R.t N κ - P κ) ≤ rel N (1 / 10 ^ 13) * len d N P) ∧
      (Cuts (withDefaults o) → d N ≤ 5000 → ∀ q, 0 ≤ q → (∃ A' B', position G A 1 = .ok A' ∧ position G B 1 = .ok B' ∧ Cond d dm dt A'.t B'.t N q) →
        len d N (fun κ => wave R.t N κ - P κ) ≤ (Real.sqrt (((N - 2 : ℕ) * q + 1) * o.cutoff.getD (1 / 10 ^ 14)) + rel N (1 / 10 ^ 13)) * len d N P) := by
  obtain ⟨A', B', n, s, a1, b1, hN, b3, hp, hP, r1, r2⟩ := start hG hT ho hf.keeps h
  intro d N P
  have hcast : (((n + 2 : ℕ) : Int)) = (n : Int) + 1 + 1 := by push_cast; ring
  have hdN : d ((n : Int) + 1 + 1) = ds A.N * dt A.N := by rw [hN, hcast]
  have hdN' : d (N : Int) = d ((n : Int) + 1 + 1) := by
    change d (A.N : Int) = _
    rw [hN, hcast]
  obtain ⟨p, l1, psi, l2, l3, l4, l5, -, l6, l7, l8⟩ := core hT ho (show (withDefaults o).norml = false from hn) hu (d := d) (hdN ▸ hf) hp r2
  obtain ⟨R, o1, o2, o3, o4⟩ := Orthog.C76_cutoff_partial hT' (o := SumNum.defaults) (by norm_num [SumNum.defaults]) rfl l3
  have e : ∀ φ : (Int → Nat) → 𝕜, normSq (fun i => (psi.t i).d) psi.N φ = normSq d (n + 2) φ := fun φ => by
    rw [l4]
    exact SumNum.normSq_dd l5.site φ
  have hR : nmult G T T' o d dm dt A B = .ok R := by
    unfold nmult
    rw [if_neg (not_not.2 h.same), a1]
    simp only [Res.bind]
    rw [b1]
    simp only
    rw [if_neg (by omega)]
    have : B'.N - 2 = n := by omega
    rw [this, r1]
    simp only
    rw [l1]
    simp only
    rw [l2]
    exact o1
  have hNn : N = n + 2 := hN
  have c2 := o2.chain
  rw [l4] at c2
  have hproj : normSq d (n + 2) (wave psi.t (n + 2)) ≤ normSq d (n + 2) P := by
    have := normSq_proj l6
    rw [TEvol.normSq_eqv hP] at this
    change _ ≤ normSq d (n + 2) (prodOp dm dt A.t B.t A.N)
    rw [hN, this]
    exact le_add_of_nonneg_right (normSq_nonneg _ _ _)
  rw [Orthog.dist, Orthog.norm2, Orthog.norm2, e, e, e, l4] at o3
  rw [Orthog.dist, Orthog.norm2, e, e, l4] at o4
  have hord : len d N (fun κ => wave R.t N κ - wave psi.t N κ) ≤ rel N (1 / 10 ^ 13) * len d N (wave psi.t N) := by
    rw [SumNum.len_swap, SumNum.rel, SumNum.len, SumNum.len, ← Real.sqrt_mul (by positivity), hNn]
    exact Real.sqrt_le_sqrt (o4.trans (le_of_eq (by rw [SumNum.defaults]; ring)))
  have hPe : TEvol.Eqv d N (prodOp dm dt A'.t B'.t N) P := by
    change TEvol.Eqv d A.N (prodOp dm dt A'.t B'.t A.N) (prodOp dm dt A.t B.t A.N)
    rw [hN]
    exact hP
  have hlen : len d N (wave psi.t N) ≤ len d N P := by
    rw [SumNum.len, SumNum.len, hNn]
    exact Real.sqrt_le_sqrt hproj
  have hrel := SumNum.rel_nonneg N (1 / 10 ^ 13)
  refine ⟨R, hR, ⟨?_, o2.left, o2.right, ?_, ?_⟩, ?_, ?_, ?_⟩
  · rw [o2.len, l4, hNn]
  · rw [hNn]
    exact ⟨c2.first, c2.last, fun i i1 i2 => (c2.site i i1 i2).trans (l5.site i i1 i2), c2.link⟩
  · rw [hNn, ← l4]
    exact o2.ro
  · refine le_trans ?_ hlen
    rw [SumNum.len, SumNum.len, hNn]
    refine Real.sqrt_le_sqrt ?_
    have := normSq_nonneg d (n + 2) fun σ => wave psi.t (n + 2) σ - wave R.t (n + 2) σ
    linarith
  · intro hw hd
    have hd' : (withDefaults o).doTrunc = false ∨ d ((n : Int) + 1 + 1) ≤ 5000 := hd.imp (fun e => by simp [Opts.doTrunc, withDefaults, e]) fun e => hdN' ▸ e
    have heq : TEvol.Eqv d N (wave psi.t N) P := by
      have := l7 hw hd'
      rw [← hNn] at this
      exact fun κ hκ => (this κ hκ).trans (hPe κ hκ)
    refine le_trans (le_of_eq (SumNum.len_eqv fun κ hκ => ?_)) (hord.trans (mul_le_mul_of_nonneg_left hlen hrel))
    rw [heq κ hκ]
  · rintro hc hd q hq ⟨A'', B'', ea, eb, hcond⟩
    rw [a1] at ea
    rw [b1] at eb
    injection ea with ea
    injection eb with eb
    subst ea eb
    have hb := l8 hc (hdN' ▸ hd) q hq (by rw [← hNn]; exact hcond)
    rw [← hNn] at hb
    have hPn : normSq d N (prodOp dm dt A'.t B'.t N) = normSq d N P := TEvol.normSq_eqv hPe
    have h1 : len d N (fun κ => wave psi.t N κ - P κ) ≤ Real.sqrt (((N - 2 : ℕ) * q + 1) * o.cutoff.getD (1 / 10 ^ 14)) * len d N P := by
      rw [SumNum.len_swap, SumNum.len, SumNum.len, ← Real.sqrt_mul (by
        have : 0 ≤ o.cutoff.getD (1 / 10 ^ 14) := ho.cutoff _ rfl
        positivity)]
      refine Real.sqrt_le_sqrt ?_
      have e1 : normSq d N (fun κ => P κ - wave psi.t N κ) = normSq d N (fun κ => prodOp dm dt A'.t B'.t N κ - wave psi.t N κ) :=
        TEvol.normSq_eqv fun κ hκ => by rw [hPe κ hκ]
      have e2 : N - 2 = n := by omega
      rw [e1, e2]
      refine hb.trans (le_of_eq ?_)
      rw [hPn, Opts.c, withDefaults]
      simp only [Option.getD_some]
      ring
    have h2 := SumNum.len_tri (dd := d) (N := N) (wave R.t N) (wave psi.t N) P
    have h3 := hord.trans (mul_le_mul_of_nonneg_left hlen hrel)
    linarith

/-! ## What ends with an error -/

/-- With a cutoff of `1E-12` or more, or with noise, and without `UseSVD`, the product of any two operators ends with an error: the indices of `A(N)`, which is still in the last
place of the result, are combined, and one of them is not in the product. mpoalgs.cc:71, decomp.h:368-380 -/
theorem C97_cutoff_counterexample {G : Ops (Site 𝕜)} (hG : GaugeOK G) {T : Tools 𝕜} (hT : T.Right) (T' : ApplyMPO.Tools 𝕜) {o : Opts} (ho : (withDefaults o).Ok)
    (hu : ¬ useSvd (withDefaults o)) (hk : Keeps (withDefaults o)) {ds dm dt : Int → ℕ} {A B : MPS (Site 𝕜)} (h : Given G ds dm dt A B) :
    nmult G T T' o (fun i => ds i * dt i) dm dt A B = .throw := by
  obtain ⟨A', B', n, s, a1, b1, hN, b3, -, -, r1, -⟩ := start hG hT ho hk h
  unfold nmult
  rw [if_neg (not_not.2 h.same), a1]
  simp only [Res.bind]
  rw [b1]
  simp only
  rw [if_neg (by omega)]
  have : B'.N - 2 = n := by omega
  rw [this, r1]
  simp only
  have : combinable (cinds indsN indsB) indsAA = false := by decide
  rw [last, if_neg hu, if_neg (by rw [this]; decide)]

/-- The product of two operators on one site ends with an error. mpoalgs.cc:74-96 -/
theorem C97_one_counterexample {G : Ops (Site 𝕜)} (hG : GaugeOK G) (T : Tools 𝕜) (T' : ApplyMPO.Tools 𝕜) (o : Opts) {dd dd' : Int → ℕ} (d dm dt : Int → ℕ) {A B : MPS (Site 𝕜)}
    (hA : A.N = 1) (hB : B.N = 1) (sA : Sound G LO RO A) (sB : Sound G LO RO B) (cA : Chain A.N dd A.t) (cB : Chain B.N dd' B.t) : nmult G T T' o d dm dt A B = .throw := by
  obtain ⟨A', a1, -⟩ := TEvol.position_wave hG sA cA (i := 1) le_rfl (by omega)
  obtain ⟨B', b1, -, b3, -⟩ := TEvol.position_wave hG sB cB (i := 1) le_rfl (by omega)
  unfold nmult
  rw [if_neg (by omega), a1]
  simp only [Res.bind]
  rw [b1]
  simp only
  rw [if_pos (by omega)]

end Verif.NMult
