import Verif.MPS.SvdBondDen
import Verif.MPS.FitApplyC85
import Verif.MPS.TEvolC74

/-!
# C96: `svdBond` factorizes within the cutoff, with either method and with noise
-/

noncomputable section

namespace Verif.SvdBond

open Finset Verif.Limits Verif.DmrgNum Matrix

variable {𝕜 : Type*} [RCLike 𝕜]

/-! ## Specification -/

/-- The product of the two tensors. -/
def prodOf (p : Site 𝕜 × Site 𝕜) {l d₁ d₂ r : ℕ} (i : Pl l d₁ d₂ r) : 𝕜 := bval p.1 p.2 i.1 i.2.1 i.2.2.1 i.2.2.2

/-- The square of the distance between the product and a tensor. -/
def err {l d₁ d₂ r : ℕ} (y : Block 𝕜 l d₁ d₂ r) (p : Site 𝕜 × Site 𝕜) : ℝ := ∑ i : Pl l d₁ d₂ r, ‖prodOf p i - y i‖ ^ 2

/-- The square of the norm of the product. -/
def size (l d₁ d₂ r : ℕ) (p : Site 𝕜 × Site 𝕜) : ℝ := ∑ i : Pl l d₁ d₂ r, ‖prodOf p i‖ ^ 2

/-- The square of the norm of the noise: of the tensor with the operator applied to one half. -/
def noiseSq (o : Opts) (ph : Option (PH 𝕜)) (dir : Dir) {l d₁ d₂ r : ℕ} (y : Block 𝕜 l d₁ d₂ r) : ℝ :=
  open Classical in
  match ph with
  | none => 0
  | some h =>
    if o.noise > 0 then
      o.noise * match dir with
        | .left => ∑ i, ∑ j, ‖noiseL h y i j‖ ^ 2
        | .right => ∑ i, ∑ j, ‖noiseR h y i j‖ ^ 2
    else 0

/-- No noise is added. -/
def Clean (o : Opts) (ph : Option (PH 𝕜)) : Prop := ph = none ∨ o.noise ≤ 0

/-- The dimension of the half that becomes orthogonal. -/
def half (dir : Dir) (l d₁ d₂ r : ℕ) : ℕ :=
  match dir with
  | .left => l * d₁
  | .right => d₂ * r

/-- The tensors fit and one of them is orthogonal. -/
structure Shape (dir : Dir) (l d₁ d₂ r : ℕ) (p : Site 𝕜 × Site 𝕜) : Prop where
  fits : p.1.l = l ∧ p.1.d = d₁ ∧ p.1.r = p.2.l ∧ p.2.d = d₂ ∧ p.2.r = r
  left : dir = .left → LO p.1
  right : dir = .right → RO p.2

/-- What is promised of the factorization without normalization:
the product is an orthogonal projection; `MaxDim` is observed; without truncation it is exact; if `MaxDim` does not matter what is
discarded is within the cutoff; and without noise it is as good as any pair of tensors with a link of dimension `MaxDim`, within the
cutoff, if degeneracies need not be respected or the tensor has such a factorization. -/
structure Good (o : Opts) (ph : Option (PH 𝕜)) (dir : Dir) {l d₁ d₂ r : ℕ} (y : Block 𝕜 l d₁ d₂ r) (p : Site 𝕜 × Site 𝕜) : Prop where
  shape : Shape dir l d₁ d₂ r p
  proj : ∑ i, (starRingEnd 𝕜) (prodOf p i) * (y i - prodOf p i) = 0
  max : o.doTrunc = true → ∀ m, o.maxdim = some m → (p.1.r : Int) ≤ m
  all : o.doTrunc = false → ∀ i, prodOf p i = y i
  cut : o.Std → (half dir l d₁ d₂ r ≤ o.M ∨ ¬ useSvd o ∧ o.maxdim = none) → 1 ≤ p.1.r ∧ err y p ≤ o.c * (‖y‖ ^ 2 + noiseSq o ph dir y)
  low : o.Std → Clean o ph → (∃ q : Site 𝕜 × Site 𝕜, q.1.r = o.M ∧ ∀ i, prodOf q i = y i) → 1 ≤ p.1.r ∧ err y p ≤ o.c * ‖y‖ ^ 2
  best : o.Std → Clean o ph → o.respect = false → 1 ≤ p.1.r ∧
    ∀ q : Site 𝕜 × Site 𝕜, q.1.r = o.M → err y p ≤ Max.max (err y q) (o.c * ‖y‖ ^ 2)

/-! ## Proof -/

/-- The same with matrices. -/
structure Dec2 {R C : Type*} [Fintype R] [Fintype C] (free clean : Prop) (nz : ℝ) (o : Opts) (A : Matrix R C 𝕜) (k : ℕ) (Q : Matrix R (Fin k) 𝕜)
    (N : Matrix (Fin k) C 𝕜) : Prop where
  orth : Qᴴ * Q = 1
  proj : N = Qᴴ * A
  max : o.doTrunc = true → ∀ m, o.maxdim = some m → (k : Int) ≤ m
  all : o.doTrunc = false → Q * N = A
  cut : o.Std → (Fintype.card R ≤ o.M ∨ free ∧ o.maxdim = none) → 1 ≤ k ∧ fro (A - Q * N) ≤ o.c * (fro A + nz)
  low : o.Std → clean → (∃ (G : Matrix R (Fin o.M) 𝕜) (H : Matrix (Fin o.M) C 𝕜), A = G * H) → 1 ≤ k ∧ fro (A - Q * N) ≤ o.c * fro A
  best : o.Std → clean → o.respect = false → 1 ≤ k ∧ ∀ (G : Matrix R (Fin o.M) 𝕜) (H : Matrix (Fin o.M) C 𝕜),
    fro (A - Q * N) ≤ Max.max (fro (A - G * H)) (o.c * fro A)

theorem embed {R : Type*} [Fintype R] [DecidableEq R] {M : ℕ} (h : Fintype.card R ≤ M) :
    ∃ (G : Matrix R (Fin M) 𝕜) (K : Matrix (Fin M) R 𝕜), G * K = 1 := by
  let e : R ↪ Fin M := (Fintype.equivFin R).toEmbedding.trans (Fin.castLEEmb h)
  refine ⟨Matrix.of fun i m => if e i = m then 1 else 0, Matrix.of fun m i => if e i = m then 1 else 0, ?_⟩
  ext i j
  rw [Matrix.mul_apply, Matrix.one_apply]
  simp only [Matrix.of_apply, ite_mul, one_mul, zero_mul, Finset.sum_ite_eq, Finset.mem_univ, if_true]
  by_cases hij : i = j
  · rw [if_pos (by rw [hij]), if_pos hij]
  · rw [if_neg (fun h => hij (e.injective h).symm), if_neg hij]

theorem Dec.to2 {R C P : Type*} [Fintype R] [Fintype C] [Fintype P] [DecidableEq R] {free : Prop} {o : Opts} {A : Matrix R C 𝕜} {noise : ℝ}
    {X : Option (Matrix R P 𝕜)} {k : ℕ} {Q : Matrix R (Fin k) 𝕜} {N : Matrix (Fin k) C 𝕜} (h : Dec free o A noise X k Q N) :
    Dec2 free (X = none ∨ noise ≤ 0) (noisePart noise X fro) o A k Q N := by
  have h0 : (X = none ∨ noise ≤ 0) → ∀ f, noisePart noise X f = 0 := by
    intro hc f
    unfold noisePart
    cases X with
    | none => rfl
    | some X =>
      rcases hc with hc | hc
      · cases hc
      · exact if_neg (not_lt.2 hc)
  refine ⟨h.orth, h.proj, h.max, h.all, fun hs hM => h.cut hs (hM.imp_left fun hM => ?_), fun hs hc ⟨G, H, hA⟩ => ?_, fun hs hc hr => ?_⟩
  · obtain ⟨G, K, hG⟩ := embed (𝕜 := 𝕜) hM
    have hz : ∀ {D : Type _} (Y : Matrix R D 𝕜), G * (K * Y) = Y := fun Y => by rw [← Matrix.mul_assoc, hG, Matrix.one_mul]
    cases X with
    | none => exact ⟨G, K * A, 0, (hz A).symm, rfl⟩
    | some X =>
      refine ⟨G, K * A, K * X, (hz A).symm, ?_⟩
      unfold noisePart
      dsimp only
      rw [← Matrix.mul_assoc, hG, Matrix.one_mul, sub_self, fro_zero, mul_zero, ite_self]
  · obtain ⟨a, b⟩ := h.cut hs (.inl ⟨G, H, 0, hA, h0 hc _⟩)
    rw [weight, h0 hc, add_zero] at b
    exact ⟨a, b⟩
  · obtain ⟨a, b⟩ := h.best hs hr
    refine ⟨a, fun G H => ?_⟩
    have := b G H 0
    rwa [weight, h0 hc, h0 hc, add_zero, add_zero] at this

theorem bval_sites {l d₁ d₂ r k : ℕ} (A : Matrix (Fin l × Fin d₁) (Fin k) 𝕜) (B : Matrix (Fin k) (Fin d₂ × Fin r) 𝕜) (i : Pl l d₁ d₂ r) :
    prodOf (sites k A B) i = (A * B) (i.1, i.2.1) (i.2.2.1, i.2.2.2) := by
  rw [prodOf, bval, Matrix.mul_apply, sites]
  dsimp only
  rw [Finset.sum_range]
  refine sum_congr rfl fun m _ => ?_
  rw [dif_pos ⟨i.1.2, i.2.1.2, m.2⟩, dif_pos ⟨m.2, i.2.2.1.2, i.2.2.2.2⟩]

theorem sum_pl {K : Type*} [AddCommMonoid K] {l d₁ d₂ r : ℕ} (f : Pl l d₁ d₂ r → K) :
    ∑ i, f i = ∑ a : Fin l × Fin d₁, ∑ b : Fin d₂ × Fin r, f (a.1, a.2, b.1, b.2) := by
  rw [← Finset.sum_product', Finset.univ_product_univ]
  refine Fintype.sum_equiv (Equiv.prodAssoc (Fin l) (Fin d₁) (Fin d₂ × Fin r)).symm _ _ fun i => ?_
  rfl

theorem norm_toMat {l d₁ d₂ r : ℕ} (y : Block 𝕜 l d₁ d₂ r) : ‖y‖ ^ 2 = fro (toMat y) := by
  rw [EuclideanSpace.norm_sq_eq, sum_pl]
  rfl

theorem err_sites {l d₁ d₂ r k : ℕ} (y : Block 𝕜 l d₁ d₂ r) (A : Matrix (Fin l × Fin d₁) (Fin k) 𝕜) (B : Matrix (Fin k) (Fin d₂ × Fin r) 𝕜) :
    err y (sites k A B) = fro (toMat y - A * B) := by
  rw [err, sum_pl]
  unfold fro
  refine sum_congr rfl fun a _ => sum_congr rfl fun b _ => ?_
  rw [bval_sites, norm_sub_rev]
  rfl

theorem size_sites {l d₁ d₂ r k : ℕ} (A : Matrix (Fin l × Fin d₁) (Fin k) 𝕜) (B : Matrix (Fin k) (Fin d₂ × Fin r) 𝕜) :
    size l d₁ d₂ r (sites k A B) = fro (A * B) := by
  rw [size, sum_pl]
  unfold fro
  refine sum_congr rfl fun a _ => sum_congr rfl fun b _ => ?_
  rw [bval_sites]

theorem LO_sites {l d₁ d₂ r k : ℕ} {A : Matrix (Fin l × Fin d₁) (Fin k) 𝕜} (h : Aᴴ * A = 1) (B : Matrix (Fin k) (Fin d₂ × Fin r) 𝕜) :
    LO (sites k A B).1 := by
  intro c' hc' c hc
  have hc'' : c' < k := hc'
  have hcc : c < k := hc
  have := congrFun (congrFun h ⟨c', hc''⟩) ⟨c, hcc⟩
  rw [Matrix.mul_apply, Matrix.one_apply, Fintype.sum_prod_type] at this
  simp only [Fin.mk.injEq] at this
  rw [← this]
  unfold sites
  dsimp only
  rw [Finset.sum_range]
  refine sum_congr rfl fun a _ => ?_
  rw [Finset.sum_range]
  refine sum_congr rfl fun s _ => ?_
  rw [dif_pos ⟨a.2, s.2, hc''⟩, dif_pos ⟨a.2, s.2, hcc⟩]
  rfl

theorem RO_sites {l d₁ d₂ r k : ℕ} (A : Matrix (Fin l × Fin d₁) (Fin k) 𝕜) {Q : Matrix (Fin d₂ × Fin r) (Fin k) 𝕜} (h : Qᴴ * Q = 1) :
    RO (sites k A Qᵀ).2 := by
  intro c' hc' c hc
  have hc'' : c' < k := hc'
  have hcc : c < k := hc
  have := congrFun (congrFun h ⟨c', hc''⟩) ⟨c, hcc⟩
  rw [Matrix.mul_apply, Matrix.one_apply, Fintype.sum_prod_type, sum_comm] at this
  simp only [Fin.mk.injEq] at this
  rw [← this]
  unfold sites
  dsimp only
  rw [Finset.sum_range]
  refine sum_congr rfl fun a _ => ?_
  rw [Finset.sum_range]
  refine sum_congr rfl fun s _ => ?_
  rw [dif_pos ⟨hc'', s.2, a.2⟩, dif_pos ⟨hcc, s.2, a.2⟩]
  rfl

/-- Tensors as matrices. -/
theorem of_pair {l d₁ d₂ r M : ℕ} (q : Site 𝕜 × Site 𝕜) (hq : q.1.r = M) :
    ∃ (G : Matrix (Fin l × Fin d₁) (Fin M) 𝕜) (H : Matrix (Fin M) (Fin d₂ × Fin r) 𝕜), ∀ i : Pl l d₁ d₂ r, prodOf q i = (G * H) (i.1, i.2.1) (i.2.2.1, i.2.2.2) := by
  refine ⟨Matrix.of fun i m => q.1.A i.1 i.2 m, Matrix.of fun m j => q.2.A m j.1 j.2, fun i => ?_⟩
  rw [prodOf, bval, Matrix.mul_apply, hq, Finset.sum_range]
  rfl

theorem err_pair {l d₁ d₂ r M : ℕ} (y : Block 𝕜 l d₁ d₂ r) {q : Site 𝕜 × Site 𝕜} {G : Matrix (Fin l × Fin d₁) (Fin M) 𝕜}
    {H : Matrix (Fin M) (Fin d₂ × Fin r) 𝕜} (h : ∀ i : Pl l d₁ d₂ r, prodOf q i = (G * H) (i.1, i.2.1) (i.2.2.1, i.2.2.2)) :
    err y q = fro (toMat y - G * H) := by
  rw [err, sum_pl]
  unfold fro
  refine sum_congr rfl fun a _ => sum_congr rfl fun b _ => ?_
  rw [h, norm_sub_rev]
  rfl

theorem good_left {o : Opts} {ph : Option (PH 𝕜)} {l d₁ d₂ r : ℕ} {y : Block 𝕜 l d₁ d₂ r} {k : ℕ} {Q : Matrix (Fin l × Fin d₁) (Fin k) 𝕜}
    {N : Matrix (Fin k) (Fin d₂ × Fin r) 𝕜} (h : Dec2 (¬ useSvd o) (Clean o ph) (noiseSq o ph .left y) o (toMat y) k Q N) :
    Good o ph .left y (sites k Q N) := by
  refine ⟨⟨⟨rfl, rfl, rfl, rfl, rfl⟩, fun _ => LO_sites h.orth N, by simp⟩, ?_, h.max, fun hf i => ?_, fun hs hM => ?_, fun hs hc ⟨q, hq, hy⟩ => ?_, fun hs hc hr => ?_⟩
  · have := inner_error h.orth (toMat y)
    rw [← h.proj] at this
    rw [sum_pl, ← this]
    refine sum_congr rfl fun a _ => sum_congr rfl fun b _ => ?_
    rw [bval_sites]
    rfl
  · rw [bval_sites, h.all hf]
    rfl
  · rw [err_sites, norm_toMat]
    exact h.cut hs (hM.imp_left fun h => by simpa [half] using h)
  · rw [err_sites, norm_toMat]
    obtain ⟨G, H, hg⟩ := of_pair (l := l) (d₁ := d₁) (d₂ := d₂) (r := r) q hq
    refine h.low hs hc ⟨G, H, ?_⟩
    ext i j
    rw [← hg (i.1, i.2, j.1, j.2), hy]
    rfl
  · obtain ⟨a, b⟩ := h.best hs hc hr
    refine ⟨a, fun q hq => ?_⟩
    obtain ⟨G, H, hg⟩ := of_pair (l := l) (d₁ := d₁) (d₂ := d₂) (r := r) q hq
    rw [err_sites, norm_toMat, err_pair y hg]
    exact b G H

theorem good_right {o : Opts} {ph : Option (PH 𝕜)} {l d₁ d₂ r : ℕ} {y : Block 𝕜 l d₁ d₂ r} {k : ℕ} {Q : Matrix (Fin d₂ × Fin r) (Fin k) 𝕜}
    {N : Matrix (Fin k) (Fin l × Fin d₁) 𝕜} (h : Dec2 (¬ useSvd o) (Clean o ph) (noiseSq o ph .right y) o (toMat y)ᵀ k Q N) :
    Good o ph .right y (sites k Nᵀ Qᵀ) := by
  have hT : Nᵀ * Qᵀ = (Q * N)ᵀ := (Matrix.transpose_mul _ _).symm
  have hE : fro (toMat y - Nᵀ * Qᵀ) = fro ((toMat y)ᵀ - Q * N) := by
    rw [← fro_transpose, Matrix.transpose_sub, hT, Matrix.transpose_transpose]
  refine ⟨⟨⟨rfl, rfl, rfl, rfl, rfl⟩, by simp, fun _ => RO_sites _ h.orth⟩, ?_, h.max, fun hf i => ?_, fun hs hM => ?_, fun hs hc ⟨q, hq, hy⟩ => ?_, fun hs hc hr => ?_⟩
  · have := inner_error h.orth (toMat y)ᵀ
    rw [← h.proj, sum_comm] at this
    rw [sum_pl, ← this]
    refine sum_congr rfl fun a _ => sum_congr rfl fun b _ => ?_
    rw [bval_sites, hT]
    rfl
  · rw [bval_sites, hT, h.all hf]
    rfl
  · rw [err_sites, norm_toMat, hE, ← fro_transpose (toMat y)]
    exact h.cut hs (hM.imp_left fun h => by simpa [half] using h)
  · rw [err_sites, norm_toMat, hE, ← fro_transpose (toMat y)]
    obtain ⟨G, H, hg⟩ := of_pair (l := l) (d₁ := d₁) (d₂ := d₂) (r := r) q hq
    refine h.low hs hc ⟨Hᵀ, Gᵀ, ?_⟩
    rw [← Matrix.transpose_mul]
    congr 1
    ext i j
    rw [← hg (i.1, i.2, j.1, j.2), hy]
    rfl
  · obtain ⟨a, b⟩ := h.best hs hc hr
    refine ⟨a, fun q hq => ?_⟩
    obtain ⟨G, H, hg⟩ := of_pair (l := l) (d₁ := d₁) (d₂ := d₂) (r := r) q hq
    rw [err_sites, norm_toMat, err_pair y hg, hE, ← fro_transpose (toMat y), ← fro_transpose (toMat y - G * H), Matrix.transpose_sub, Matrix.transpose_mul]
    exact b Hᵀ Gᵀ

theorem fro_diag {k : ℕ} (D : Fin k → ℝ) : fro (Matrix.diagonal fun j => (D j : 𝕜)) = ∑ j, D j ^ 2 := by
  unfold fro
  refine sum_congr rfl fun i _ => ?_
  rw [sum_eq_single i]
  · rw [Matrix.diagonal_apply_eq, RCLike.norm_ofReal, sq_abs]
  · intro j _ hj
    rw [Matrix.diagonal_apply_ne _ hj.symm]
    simp
  · simp

/-- The options are admissible. -/
structure Opts.Ok (o : Opts) : Prop where
  maxdim : ∀ m, o.maxdim = some m → 1 ≤ m
  mindim : 1 ≤ o.mindim
  cutoff : ∀ c, o.cutoff = some c → 0 ≤ c
  svd : o.useSVD = true → o.noise ≤ 0

theorem normD_false {R C : Type*} [Fintype R] [Fintype C] {o : Opts} (h : o.norml = false) (A : Matrix R C 𝕜) : normD o A = A := by simp [normD, h]

theorem normD_true {R C : Type*} [Fintype R] [Fintype C] {o : Opts} (h : o.norml = true) {A : Matrix R C 𝕜} (hA : 1 / 10 ^ 16 < nrm A) :
    normD o A = ((1 / nrm A : ℝ) : 𝕜) • A := by
  unfold normD
  rw [if_pos h, if_pos hA]

/-- Both methods, from the left. -/
theorem split_left {T : Tools 𝕜} (hT : T.Right) {o : Opts} (ho : o.Ok) (ph : Option (PH 𝕜)) {l d₁ d₂ r : ℕ} (h1 : 1 ≤ l * d₁) (h2 : 1 ≤ d₂ * r)
    (y : Block 𝕜 l d₁ d₂ r) : ∃ k Q N, Dec2 (¬ useSvd o) (Clean o ph) (noiseSq o ph .left y) o (toMat y) k Q N ∧
      ∀ b, (b = false → split T { o with norml := b } ph .left l d₁ d₂ r y = .ok (sites k Q N)) ∧
        (b = true → 1 / 10 ^ 16 < nrm N → split T { o with norml := b } ph .left l d₁ d₂ r y = .ok (sites k Q (((1 / nrm N : ℝ) : 𝕜) • N))) := by
  by_cases hu : useSvd o
  · have hn : o.noise ≤ 0 := by
      rcases hu with hu | hu
      · exact ho.svd hu
      · exact hu.1.le
    have hlen : (List.ofFn fun j => (T.svd l d₁ d₂ r (toMat y)).2.1 j * (T.svd l d₁ d₂ r (toMat y)).2.1 j).length = min (l * d₁) (d₂ * r) := List.length_ofFn
    obtain ⟨k, hk1, hk2⟩ := keepS_spec (o := o) hT.eps (P := List.ofFn fun j => (T.svd l d₁ d₂ r (toMat y)).2.1 j * (T.svd l d₁ d₂ r (toMat y)).2.1 j)
      (by rw [← List.length_pos_iff, hlen]; omega)
      (desc_ofFn fun i j hij => mul_self_le_mul_self (hT.snonneg l d₁ d₂ r _ j) (hT.santi l d₁ d₂ r _ hij))
      (fun x hx => by
        obtain ⟨j, rfl⟩ := (List.mem_ofFn' _ _).1 hx
        exact mul_self_nonneg _) ho.maxdim ho.mindim ho.cutoff
    rw [hlen] at hk1
    have hd := (svd_left hT (toMat y) hk2).to2
    set q := T.svd l d₁ d₂ r (toMat y) with hq
    have hkn : k ≤ min (l * d₁) (d₂ * r) := by simpa using hk2.le
    set D : Fin k → ℝ := fun j => if h : j.val < min (l * d₁) (d₂ * r) then q.2.1 ⟨j.val, h⟩ else 0 with hD
    set N : Matrix (Fin k) (Fin d₂ × Fin r) 𝕜 := Matrix.diagonal (fun j => (D j : 𝕜)) * ((cutCols q.2.2 k).map star)ᵀ with hN
    have hz : noiseSq o ph .left y = 0 := by
      unfold noiseSq
      split
      · rfl
      · exact if_neg (not_lt.2 hn)
    refine ⟨k, cutCols q.1 k, N, ?_, fun b => ⟨fun hb => ?_, fun hb hnr => ?_⟩⟩
    · refine ⟨hd.orth, hd.proj, hd.max, hd.all, fun hs hM => ?_, fun hs _ hG => hd.low hs (.inl rfl) hG, fun hs _ hr => hd.best hs (.inl rfl) hr⟩
      rw [hz]
      exact hd.cut hs (hM.imp_right fun h => absurd hu h.1)
    · subst hb
      unfold split
      rw [if_pos (show useSvd { o with norml := false } from hu)]
      unfold bySvd
      dsimp only
      rw [if_neg (not_lt.2 hn), ← hq]
      rw [show keepS T.eps { o with norml := false } (min (l * d₁) (d₂ * r)) (List.ofFn fun j => q.2.1 j * q.2.1 j) = .ok k from hk1]
      simp only [Res.bind, Res.map, cutD, Bool.false_eq_true, if_false]
      rfl
    · subst hb
      have hfro : fro N = ∑ j, D j ^ 2 := by
        rw [← fro_conjTranspose, hN, Matrix.conjTranspose_mul]
        have e1 : (((cutCols q.2.2 k).map star)ᵀ)ᴴ = cutCols q.2.2 k := by
          ext i j
          rw [Matrix.conjTranspose_apply, Matrix.transpose_apply, Matrix.map_apply, star_star]
        rw [e1, fro_isometry (cutCols_orth (hT.sV l d₁ d₂ r _) hkn), fro_conjTranspose, fro_diag]
      have hs : nrm N = Real.sqrt (∑ j, D j ^ 2) := by rw [← hfro]; rfl
      have hs0 : Real.sqrt (∑ j, D j ^ 2) ≠ 0 := by rw [← hs]; exact (lt_trans (by positivity) hnr).ne'
      have hsm : Matrix.diagonal (fun j => ((1 / Real.sqrt (∑ j, D j ^ 2) * D j : ℝ) : 𝕜)) * ((cutCols q.2.2 k).map star)ᵀ =
          ((1 / nrm N : ℝ) : 𝕜) • N := by
        rw [hN, ← Matrix.smul_mul, ← Matrix.diagonal_smul, ← hN, hs]
        congr 2
        ext j
        simp
      unfold split
      rw [if_pos (show useSvd { o with norml := true } from hu)]
      unfold bySvd
      dsimp only
      rw [if_neg (not_lt.2 hn), ← hq]
      rw [show keepS T.eps { o with norml := true } (min (l * d₁) (d₂ * r)) (List.ofFn fun j => q.2.1 j * q.2.1 j) = .ok k from hk1]
      simp only [Res.bind, cutD, if_true]
      rw [if_neg hs0]
      simp only [Res.map]
      rw [hsm]
  · cases ph with
    | none =>
      obtain ⟨k, Q, N, hk, hd⟩ := denmat_spec (P := Empty) hT ho.maxdim ho.mindim ho.cutoff h1 (toMat y) none
      have hd := hd.to2
      refine ⟨k, Q, N, ⟨hd.orth, hd.proj, hd.max, hd.all, fun hs hM => ?_, fun hs _ hG => hd.low hs (.inl rfl) hG, fun hs _ hr => hd.best hs (.inl rfl) hr⟩,
        fun b => ⟨fun hb => ?_, fun hb hnr => ?_⟩⟩
      · exact hd.cut hs (hM.imp_right fun h => ⟨trivial, h.2⟩)
      · unfold split
        rw [if_neg (show ¬ useSvd { o with norml := b } from hu)]
        dsimp only
        rw [show denmat (P := Empty) T { o with norml := b } (toMat y) none = .ok ⟨k, Q, N⟩ from hk]
        simp only [Res.map]
        rw [normD_false hb]
      · unfold split
        rw [if_neg (show ¬ useSvd { o with norml := b } from hu)]
        dsimp only
        rw [show denmat (P := Empty) T { o with norml := b } (toMat y) none = .ok ⟨k, Q, N⟩ from hk]
        simp only [Res.map]
        rw [normD_true hb hnr]
    | some h =>
      obtain ⟨k, Q, N, hk, hd⟩ := denmat_spec hT ho.maxdim ho.mindim ho.cutoff h1 (toMat y) (some (noiseL h y))
      have hd := hd.to2
      have hcl : Clean o (some h) → some (noiseL h y) = none ∨ o.noise ≤ 0 := fun hc => .inr (hc.resolve_left (by simp))
      refine ⟨k, Q, N, ⟨hd.orth, hd.proj, hd.max, hd.all, fun hs hM => ?_, fun hs hc hG => hd.low hs (hcl hc) hG, fun hs hc hr => hd.best hs (hcl hc) hr⟩,
        fun b => ⟨fun hb => ?_, fun hb hnr => ?_⟩⟩
      · exact hd.cut hs (hM.imp_right fun h => ⟨trivial, h.2⟩)
      · unfold split
        rw [if_neg (show ¬ useSvd { o with norml := b } from hu)]
        dsimp only
        rw [show denmat T { o with norml := b } (toMat y) (some (noiseL h y)) = .ok ⟨k, Q, N⟩ from hk]
        simp only [Res.map]
        rw [normD_false hb]
      · unfold split
        rw [if_neg (show ¬ useSvd { o with norml := b } from hu)]
        dsimp only
        rw [show denmat T { o with norml := b } (toMat y) (some (noiseL h y)) = .ok ⟨k, Q, N⟩ from hk]
        simp only [Res.map]
        rw [normD_true hb hnr]

/-- Both methods, from the right. -/
theorem split_right {T : Tools 𝕜} (hT : T.Right) {o : Opts} (ho : o.Ok) (ph : Option (PH 𝕜)) {l d₁ d₂ r : ℕ} (h1 : 1 ≤ l * d₁) (h2 : 1 ≤ d₂ * r)
    (y : Block 𝕜 l d₁ d₂ r) : ∃ k Q N, Dec2 (¬ useSvd o) (Clean o ph) (noiseSq o ph .right y) o (toMat y)ᵀ k Q N ∧
      ∀ b, (b = false → split T { o with norml := b } ph .right l d₁ d₂ r y = .ok (sites k Nᵀ Qᵀ)) ∧
        (b = true → 1 / 10 ^ 16 < nrm N → split T { o with norml := b } ph .right l d₁ d₂ r y = .ok (sites k (((1 / nrm N : ℝ) : 𝕜) • N)ᵀ Qᵀ)) := by
  by_cases hu : useSvd o
  · have hn : o.noise ≤ 0 := by
      rcases hu with hu | hu
      · exact ho.svd hu
      · exact hu.1.le
    have hlen : (List.ofFn fun j => (T.svd l d₁ d₂ r (toMat y)).2.1 j * (T.svd l d₁ d₂ r (toMat y)).2.1 j).length = min (l * d₁) (d₂ * r) := List.length_ofFn
    obtain ⟨k, hk1, hk2⟩ := keepS_spec (o := o) hT.eps (P := List.ofFn fun j => (T.svd l d₁ d₂ r (toMat y)).2.1 j * (T.svd l d₁ d₂ r (toMat y)).2.1 j)
      (by rw [← List.length_pos_iff, hlen]; omega)
      (desc_ofFn fun i j hij => mul_self_le_mul_self (hT.snonneg l d₁ d₂ r _ j) (hT.santi l d₁ d₂ r _ hij))
      (fun x hx => by
        obtain ⟨j, rfl⟩ := (List.mem_ofFn' _ _).1 hx
        exact mul_self_nonneg _) ho.maxdim ho.mindim ho.cutoff
    rw [hlen] at hk1
    have hd := (svd_right hT (toMat y) hk2).to2
    set q := T.svd l d₁ d₂ r (toMat y) with hq
    have hkn : k ≤ min (l * d₁) (d₂ * r) := by simpa using hk2.le
    set D : Fin k → ℝ := fun j => if h : j.val < min (l * d₁) (d₂ * r) then q.2.1 ⟨j.val, h⟩ else 0 with hD
    set N : Matrix (Fin k) (Fin l × Fin d₁) 𝕜 := (cutCols q.1 k * Matrix.diagonal (fun j => (D j : 𝕜)))ᵀ with hN
    have hz : noiseSq o ph .right y = 0 := by
      unfold noiseSq
      split
      · rfl
      · exact if_neg (not_lt.2 hn)
    refine ⟨k, (cutCols q.2.2 k).map star, N, ?_, fun b => ⟨fun hb => ?_, fun hb hnr => ?_⟩⟩
    · refine ⟨hd.orth, hd.proj, hd.max, hd.all, fun hs hM => ?_, fun hs _ hG => hd.low hs (.inl rfl) hG, fun hs _ hr => hd.best hs (.inl rfl) hr⟩
      rw [hz]
      exact hd.cut hs (hM.imp_right fun h => absurd hu h.1)
    · subst hb
      unfold split
      rw [if_pos (show useSvd { o with norml := false } from hu)]
      unfold bySvd
      dsimp only
      rw [if_neg (not_lt.2 hn), ← hq]
      rw [show keepS T.eps { o with norml := false } (min (l * d₁) (d₂ * r)) (List.ofFn fun j => q.2.1 j * q.2.1 j) = .ok k from hk1]
      simp only [Res.bind, Res.map, cutD, Bool.false_eq_true, if_false]
      rw [hN, Matrix.transpose_transpose]
    · subst hb
      have hfro : fro N = ∑ j, D j ^ 2 := by
        rw [hN, fro_transpose, fro_isometry (cutCols_orth (hT.sU l d₁ d₂ r _) hkn), fro_diag]
      have hs : nrm N = Real.sqrt (∑ j, D j ^ 2) := by rw [← hfro]; rfl
      have hs0 : Real.sqrt (∑ j, D j ^ 2) ≠ 0 := by rw [← hs]; exact (lt_trans (by positivity) hnr).ne'
      have hsm : cutCols q.1 k * Matrix.diagonal (fun j => ((1 / Real.sqrt (∑ j, D j ^ 2) * D j : ℝ) : 𝕜)) = (((1 / nrm N : ℝ) : 𝕜) • N)ᵀ := by
        rw [Matrix.transpose_smul, hs, hN, Matrix.transpose_transpose, ← Matrix.mul_smul, ← Matrix.diagonal_smul]
        congr 2
        ext j
        simp
      unfold split
      rw [if_pos (show useSvd { o with norml := true } from hu)]
      unfold bySvd
      dsimp only
      rw [if_neg (not_lt.2 hn), ← hq]
      rw [show keepS T.eps { o with norml := true } (min (l * d₁) (d₂ * r)) (List.ofFn fun j => q.2.1 j * q.2.1 j) = .ok k from hk1]
      simp only [Res.bind, cutD, if_true]
      rw [if_neg hs0]
      simp only [Res.map]
      rw [hsm]
  · cases ph with
    | none =>
      obtain ⟨k, Q, N, hk, hd⟩ := denmat_spec (P := Empty) hT ho.maxdim ho.mindim ho.cutoff h2 (toMat y)ᵀ none
      have hd := hd.to2
      refine ⟨k, Q, N, ⟨hd.orth, hd.proj, hd.max, hd.all, fun hs hM => ?_, fun hs _ hG => hd.low hs (.inl rfl) hG, fun hs _ hr => hd.best hs (.inl rfl) hr⟩,
        fun b => ⟨fun hb => ?_, fun hb hnr => ?_⟩⟩
      · exact hd.cut hs (hM.imp_right fun h => ⟨trivial, h.2⟩)
      · unfold split
        rw [if_neg (show ¬ useSvd { o with norml := b } from hu)]
        dsimp only
        rw [show denmat (P := Empty) T { o with norml := b } (toMat y)ᵀ none = .ok ⟨k, Q, N⟩ from hk]
        simp only [Res.map]
        rw [normD_false hb]
      · unfold split
        rw [if_neg (show ¬ useSvd { o with norml := b } from hu)]
        dsimp only
        rw [show denmat (P := Empty) T { o with norml := b } (toMat y)ᵀ none = .ok ⟨k, Q, N⟩ from hk]
        simp only [Res.map]
        rw [normD_true hb hnr]
    | some h =>
      obtain ⟨k, Q, N, hk, hd⟩ := denmat_spec hT ho.maxdim ho.mindim ho.cutoff h2 (toMat y)ᵀ (some (noiseR h y))
      have hd := hd.to2
      have hcl : Clean o (some h) → some (noiseR h y) = none ∨ o.noise ≤ 0 := fun hc => .inr (hc.resolve_left (by simp))
      refine ⟨k, Q, N, ⟨hd.orth, hd.proj, hd.max, hd.all, fun hs hM => ?_, fun hs hc hG => hd.low hs (hcl hc) hG, fun hs hc hr => hd.best hs (hcl hc) hr⟩,
        fun b => ⟨fun hb => ?_, fun hb hnr => ?_⟩⟩
      · exact hd.cut hs (hM.imp_right fun h => ⟨trivial, h.2⟩)
      · unfold split
        rw [if_neg (show ¬ useSvd { o with norml := b } from hu)]
        dsimp only
        rw [show denmat T { o with norml := b } (toMat y)ᵀ (some (noiseR h y)) = .ok ⟨k, Q, N⟩ from hk]
        simp only [Res.map]
        rw [normD_false hb]
      · unfold split
        rw [if_neg (show ¬ useSvd { o with norml := b } from hu)]
        dsimp only
        rw [show denmat T { o with norml := b } (toMat y)ᵀ (some (noiseR h y)) = .ok ⟨k, Q, N⟩ from hk]
        simp only [Res.map]
        rw [normD_true hb hnr]


theorem size_prod {l d₁ d₂ r k : ℕ} {Q : Matrix (Fin l × Fin d₁) (Fin k) 𝕜} (hQ : Qᴴ * Q = 1) (N : Matrix (Fin k) (Fin d₂ × Fin r) 𝕜) :
    size l d₁ d₂ r (sites k Q N) = nrm N ^ 2 := by rw [size_sites, fro_isometry hQ, nrm_sq]

theorem size_prod' {l d₁ d₂ r k : ℕ} {Q : Matrix (Fin d₂ × Fin r) (Fin k) 𝕜} (hQ : Qᴴ * Q = 1) (N : Matrix (Fin k) (Fin l × Fin d₁) 𝕜) :
    size l d₁ d₂ r (sites k Nᵀ Qᵀ) = nrm N ^ 2 := by
  rw [size_sites, ← Matrix.transpose_mul, fro_transpose, fro_isometry hQ, nrm_sq]

/-- **C96 (partial).** `svdBond` without `DoNormalize`, for a tensor without empty indices: it returns, and what it returns is as in
`Good`, whichever method it chooses and with or without noise. Missing: with the default `RespectDegenerate` and a `MaxDim` that matters
nothing may be left of the tensor (`C96_degenerate_counterexample`), also with noise (`C96_noise_counterexample`); noise with `UseSVD` is
an error (`C96_svd_counterexample`). -/
theorem C96_split_partial {T : Tools 𝕜} (hT : T.Right) {o : Opts} (ho : o.Ok) (hn : o.norml = false) (ph : Option (PH 𝕜)) (dir : Dir)
    {l d₁ d₂ r : ℕ} (h1 : 1 ≤ l * d₁) (h2 : 1 ≤ d₂ * r) (y : Block 𝕜 l d₁ d₂ r) :
    ∃ p, split T o ph dir l d₁ d₂ r y = .ok p ∧ Good o ph dir y p := by
  have e : { o with norml := false } = o := by cases o; simp_all
  cases dir with
  | left =>
    obtain ⟨k, Q, N, hd, hb⟩ := split_left hT ho ph h1 h2 y
    have := (hb false).1 rfl
    rw [e] at this
    exact ⟨_, this, good_left hd⟩
  | right =>
    obtain ⟨k, Q, N, hd, hb⟩ := split_right hT ho ph h1 h2 y
    have := (hb false).1 rfl
    rw [e] at this
    exact ⟨_, this, good_right hd⟩

/-- **C96, with `DoNormalize` (partial).** If what is left without it has norm above `1E-16`, the result is the same divided by its norm. -/
theorem C96_normalized_partial {T : Tools 𝕜} (hT : T.Right) {o : Opts} (ho : o.Ok) (hn : o.norml = true) (ph : Option (PH 𝕜)) (dir : Dir)
    {l d₁ d₂ r : ℕ} (h1 : 1 ≤ l * d₁) (h2 : 1 ≤ d₂ * r) (y : Block 𝕜 l d₁ d₂ r) :
    ∃ p, split T { o with norml := false } ph dir l d₁ d₂ r y = .ok p ∧ Good o ph dir y p ∧
      (1 / 10 ^ 16 < Real.sqrt (size l d₁ d₂ r p) → ∃ p', split T o ph dir l d₁ d₂ r y = .ok p' ∧ Shape dir l d₁ d₂ r p' ∧ p'.1.r = p.1.r ∧
        size l d₁ d₂ r p' = 1 ∧ ∀ i : Pl l d₁ d₂ r, prodOf p' i = ((1 / Real.sqrt (size l d₁ d₂ r p) : ℝ) : 𝕜) * prodOf p i) := by
  have e : { o with norml := true } = o := by cases o; simp_all
  cases dir with
  | left =>
    obtain ⟨k, Q, N, hd, hb⟩ := split_left hT ho ph h1 h2 y
    refine ⟨_, (hb false).1 rfl, good_left hd, fun hs => ?_⟩
    have hsz := size_prod hd.orth N
    have h0 : 0 ≤ nrm N := Real.sqrt_nonneg _
    rw [hsz, Real.sqrt_sq h0] at hs
    have := (hb true).2 rfl hs
    rw [e] at this
    refine ⟨_, this, ⟨⟨rfl, rfl, rfl, rfl, rfl⟩, fun _ => LO_sites hd.orth _, by simp⟩, rfl, ?_, fun i => ?_⟩
    · rw [size_prod hd.orth, nrm_sq, fro_smul, ← nrm_sq]
      have : nrm N ≠ 0 := (lt_trans (by positivity) hs).ne'
      field_simp
    · rw [bval_sites, bval_sites, hsz, Real.sqrt_sq h0, Matrix.mul_smul]
      rfl
  | right =>
    obtain ⟨k, Q, N, hd, hb⟩ := split_right hT ho ph h1 h2 y
    refine ⟨_, (hb false).1 rfl, good_right hd, fun hs => ?_⟩
    have hsz := size_prod' hd.orth N
    have h0 : 0 ≤ nrm N := Real.sqrt_nonneg _
    rw [hsz, Real.sqrt_sq h0] at hs
    have := (hb true).2 rfl hs
    rw [e] at this
    refine ⟨_, this, ⟨⟨rfl, rfl, rfl, rfl, rfl⟩, by simp, fun _ => RO_sites _ hd.orth⟩, rfl, ?_, fun i => ?_⟩
    · rw [size_prod' hd.orth, nrm_sq, fro_smul, ← nrm_sq]
      have : nrm N ≠ 0 := (lt_trans (by positivity) hs).ne'
      field_simp
    · rw [bval_sites, bval_sites, hsz, Real.sqrt_sq h0, Matrix.transpose_smul, Matrix.smul_mul]
      rfl

/-! ## What the algorithms are proved from -/

/-- `svdBond` in the rounds of an algorithm: options and projected operator may change from round to round. For tensors with an index of
dimension 0, which do not occur, tensors with an empty link are put. -/
def total (T : Tools 𝕜) (o : Nat → Opts) (ph : Nat → Option (PH 𝕜)) : Nat → Dir → (l d₁ d₂ r : ℕ) → Block 𝕜 l d₁ d₂ r → Site 𝕜 × Site 𝕜 :=
  fun n dir l d₁ d₂ r y =>
    let no : Site 𝕜 × Site 𝕜 := sites (l := l) (d₁ := d₁) (d₂ := d₂) (r := r) 0 0 0
    if 1 ≤ l * d₁ ∧ 1 ≤ d₂ * r then
      match split T (o n) (ph n) dir l d₁ d₂ r y with
      | .ok p => p
      | _ => no
    else no

theorem empty_pl {l d₁ d₂ r : ℕ} (h : ¬ (1 ≤ l * d₁ ∧ 1 ≤ d₂ * r)) : IsEmpty (Pl l d₁ d₂ r) := by
  refine ⟨fun i => h ⟨?_, ?_⟩⟩
  · exact Nat.mul_pos (Nat.lt_of_le_of_lt (Nat.zero_le _) i.1.2) (Nat.lt_of_le_of_lt (Nat.zero_le _) i.2.1.2)
  · exact Nat.mul_pos (Nat.lt_of_le_of_lt (Nat.zero_le _) i.2.2.1.2) (Nat.lt_of_le_of_lt (Nat.zero_le _) i.2.2.2.2)

theorem total_ok {T : Tools 𝕜} {o : Nat → Opts} {ph : Nat → Option (PH 𝕜)} {n : ℕ} {dir : Dir} {l d₁ d₂ r : ℕ} (h : 1 ≤ l * d₁ ∧ 1 ≤ d₂ * r)
    {y : Block 𝕜 l d₁ d₂ r} {p : Site 𝕜 × Site 𝕜} (hp : split T (o n) (ph n) dir l d₁ d₂ r y = .ok p) : total T o ph n dir l d₁ d₂ r y = p := by
  unfold total
  rw [if_pos h, hp]

theorem total_no {T : Tools 𝕜} {o : Nat → Opts} {ph : Nat → Option (PH 𝕜)} {n : ℕ} {dir : Dir} {l d₁ d₂ r : ℕ} (h : ¬ (1 ≤ l * d₁ ∧ 1 ≤ d₂ * r))
    (y : Block 𝕜 l d₁ d₂ r) : Shape dir l d₁ d₂ r (total T o ph n dir l d₁ d₂ r y) := by
  unfold total
  rw [if_neg h]
  exact ⟨⟨rfl, rfl, rfl, rfl, rfl⟩, fun _ c' hc' => absurd hc' (Nat.not_lt_zero _), fun _ c' hc' => absurd hc' (Nat.not_lt_zero _)⟩

/-- For an orthogonal projection. -/
theorem pyth {l d₁ d₂ r : ℕ} {y : Block 𝕜 l d₁ d₂ r} {p : Site 𝕜 × Site 𝕜} (h : ∑ i : Pl l d₁ d₂ r, (starRingEnd 𝕜) (prodOf p i) * (y i - prodOf p i) = 0) :
    ‖y‖ ^ 2 = size l d₁ d₂ r p + err y p := by
  have e : ∀ i : Pl l d₁ d₂ r, ‖y i‖ ^ 2 = ‖prodOf p i‖ ^ 2 + ‖prodOf p i - y i‖ ^ 2 + 2 * RCLike.re ((starRingEnd 𝕜) (prodOf p i) * (y i - prodOf p i)) := by
    intro i
    have := norm_add_sq (𝕜 := 𝕜) (prodOf p i) (y i - prodOf p i)
    rw [add_sub_cancel, RCLike.inner_apply, mul_comm (y i - prodOf p i), norm_sub_rev] at this
    linarith
  rw [EuclideanSpace.norm_sq_eq, sum_congr rfl fun i _ => e i, sum_add_distrib, sum_add_distrib, ← mul_sum, ← map_sum, h]
  simp [size, err]

/-- **C96: what C85 needs.** With any admissible options without normalization, fitting gets an orthogonal projection; if the density
matrix is used, without noise and with no other option than the cutoff, it is within the cutoff. -/
theorem C96_fit {T : Tools 𝕜} (hT : T.Right) {o : Nat → Opts} (ho : ∀ n, (o n).Ok) (hn : ∀ n, (o n).norml = false) (ph : Nat → Option (PH 𝕜)) :
    FitApply.SplitOK (total T o ph) ∧
      ∀ ε, 0 ≤ ε → (∀ n, (o n).Std ∧ (o n).maxdim = none ∧ ¬ useSvd (o n) ∧ Clean (o n) (ph n) ∧ (o n).c ≤ ε) → FitApply.Near (total T o ph) ε := by
  have key : ∀ n dir l d₁ d₂ r (y : Block 𝕜 l d₁ d₂ r), (1 ≤ l * d₁ ∧ 1 ≤ d₂ * r) → Good (o n) (ph n) dir y (total T o ph n dir l d₁ d₂ r y) := by
    intro n dir l d₁ d₂ r y h
    obtain ⟨p, h1, h2⟩ := C96_split_partial hT (ho n) (hn n) (ph n) dir h.1 h.2 y
    rw [total_ok h h1]
    exact h2
  have shape : ∀ n dir l d₁ d₂ r (y : Block 𝕜 l d₁ d₂ r), Shape dir l d₁ d₂ r (total T o ph n dir l d₁ d₂ r y) := by
    intro n dir l d₁ d₂ r y
    by_cases h : 1 ≤ l * d₁ ∧ 1 ≤ d₂ * r
    · exact (key n dir l d₁ d₂ r y h).shape
    · exact total_no h y
  refine ⟨⟨fun n dir l d₁ d₂ r y => (shape n dir l d₁ d₂ r y).fits, fun n l d₁ d₂ r y => (shape n .left l d₁ d₂ r y).left rfl,
    fun n l d₁ d₂ r y => (shape n .right l d₁ d₂ r y).right rfl, fun n dir l d₁ d₂ r y => ?_⟩, fun ε hε h => ?_⟩
  · by_cases h : 1 ≤ l * d₁ ∧ 1 ≤ d₂ * r
    · exact (key n dir l d₁ d₂ r y h).proj
    · have := empty_pl h
      exact Finset.sum_of_isEmpty _
  · intro n dir l d₁ d₂ r y
    by_cases hd : 1 ≤ l * d₁ ∧ 1 ≤ d₂ * r
    · obtain ⟨g1, g2, g3, g4, g5⟩ := h n
      have hnz : noiseSq (o n) (ph n) dir y = 0 := by
        unfold noiseSq
        rcases g4 with g4 | g4
        · rw [g4]
        · split
          · rfl
          · exact if_neg (not_lt.2 g4)
      have := ((key n dir l d₁ d₂ r y hd).cut g1 (.inr ⟨g3, g2⟩)).2
      rw [hnz, add_zero] at this
      exact this.trans (mul_le_mul_of_nonneg_right g5 (by positivity))
    · have := empty_pl hd
      refine le_trans (le_of_eq (Finset.sum_of_isEmpty _)) (by positivity)

/-- **C96: what C74 needs.** Without truncation the factorization after a gate is exact. -/
theorem C96_gates {T : Tools 𝕜} (hT : T.Right) {o : Nat → Opts} (ho : ∀ n, (o n).Ok) (hn : ∀ n, (o n).norml = false) (ph : Nat → Option (PH 𝕜)) :
    TEvol.SplitFit (total T o ph) ∧ ((∀ n, (o n).doTrunc = false) → TEvol.SplitExact (total T o ph)) := by
  have hf := (C96_fit hT ho hn ph).1
  refine ⟨⟨hf.fits, hf.left, hf.right⟩, fun h n dir l d₁ d₂ r y i => ?_⟩
  by_cases hd : 1 ≤ l * d₁ ∧ 1 ≤ d₂ * r
  · obtain ⟨p, h1, h2⟩ := C96_split_partial hT (ho n) (hn n) (ph n) dir hd.1 hd.2 y
    rw [total_ok hd h1]
    exact h2.all (h n) i
  · exact ((empty_pl hd).false i).elim

/-- **C96: what C73 needs.** In a DMRG calculation the tensor has norm 1. Without truncation, also with noise, the factorization is
exact; with a cutoff of at most one half, the density matrix and no noise the product has norm 1. -/
theorem C96_dmrg {T : Tools 𝕜} (hT : T.Right) {o : Nat → Opts} (ho : ∀ n, (o n).Ok) (hn : ∀ n, (o n).norml = true) (ph : Nat → Option (PH 𝕜))
    (h : ∀ n, (o n).doTrunc = false ∨ (o n).Std ∧ (o n).maxdim = none ∧ ¬ useSvd (o n) ∧ Clean (o n) (ph n) ∧ (o n).c ≤ 1 / 2)
    {D : DmrgNum.Tools 𝕜} (hD : D.split = total T o ph) : DmrgNum.SplitOK D ∧ ((∀ n, (o n).doTrunc = false) → DmrgNum.Exact D) := by
  have key : ∀ n dir l d₁ d₂ r (y : Block 𝕜 l d₁ d₂ r), ‖y‖ = 1 → (1 ≤ l * d₁ ∧ 1 ≤ d₂ * r) → Shape dir l d₁ d₂ r (total T o ph n dir l d₁ d₂ r y) ∧
      size l d₁ d₂ r (total T o ph n dir l d₁ d₂ r y) = 1 ∧ ((o n).doTrunc = false → ∀ i, prodOf (total T o ph n dir l d₁ d₂ r y) i = y i) := by
    intro n dir l d₁ d₂ r y hy hd
    obtain ⟨p, h1, h2, h3⟩ := C96_normalized_partial hT (ho n) (hn n) (ph n) dir hd.1 hd.2 y
    have hp := pyth h2.proj
    rw [hy] at hp
    have hex : (o n).doTrunc = false → size l d₁ d₂ r p = 1 := by
      intro hf
      have : err y p = 0 := by
        unfold err
        exact sum_eq_zero fun i _ => by rw [h2.all hf i]; simp
      rw [this] at hp
      linarith
    have hsz : 1 / 2 ≤ size l d₁ d₂ r p := by
      rcases h n with hf | ⟨g1, g2, g3, g4, g5⟩
      · rw [hex hf]; norm_num
      · have hnz : noiseSq (o n) (ph n) dir y = 0 := by
          unfold noiseSq
          rcases g4 with g4 | g4
          · rw [g4]
          · split
            · rfl
            · exact if_neg (not_lt.2 g4)
        have := (h2.cut g1 (.inr ⟨g3, g2⟩)).2
        rw [hnz, hy] at this
        linarith
    have hs : 1 / 10 ^ 16 < Real.sqrt (size l d₁ d₂ r p) := by
      rw [Real.lt_sqrt (by positivity)]
      refine lt_of_lt_of_le ?_ hsz
      norm_num
    obtain ⟨p', e1, e2, -, e4, e5⟩ := h3 hs
    rw [total_ok hd e1]
    refine ⟨e2, e4, fun hf i => ?_⟩
    rw [e5, hex hf, h2.all hf]
    simp
  have shape : ∀ n dir l d₁ d₂ r (y : Block 𝕜 l d₁ d₂ r), ‖y‖ = 1 → Shape dir l d₁ d₂ r (total T o ph n dir l d₁ d₂ r y) := by
    intro n dir l d₁ d₂ r y hy
    by_cases hd : 1 ≤ l * d₁ ∧ 1 ≤ d₂ * r
    · exact (key n dir l d₁ d₂ r y hy hd).1
    · exact total_no hd y
  have dims : ∀ {l d₁ d₂ r} (y : Block 𝕜 l d₁ d₂ r), ‖y‖ = 1 → (1 ≤ l * d₁ ∧ 1 ≤ d₂ * r) := by
    intro l d₁ d₂ r y hy
    by_contra hd
    have := empty_pl hd
    have h0 : y = 0 := by ext i; exact (this.false i).elim
    rw [h0, norm_zero] at hy
    exact zero_ne_one hy
  refine ⟨?_, ?_⟩
  rotate_left
  · intro hf n dir l d₁ d₂ r y hy
    rw [hD]
    exact (key n dir l d₁ d₂ r y hy (dims y hy)).2.2 (hf n)
  refine ⟨?_, ?_, ?_, ?_⟩ <;> rw [hD]
  · exact fun n dir l d₁ d₂ r y hy => (shape n dir l d₁ d₂ r y hy).fits
  · exact fun n l d₁ d₂ r y hy => (shape n .left l d₁ d₂ r y hy).left rfl
  · exact fun n l d₁ d₂ r y hy => (shape n .right l d₁ d₂ r y hy).right rfl
  · exact fun n dir l d₁ d₂ r y hy => (key n dir l d₁ d₂ r y hy (dims y hy)).2.1

end Verif.SvdBond
