import Verif.MPS.SvdBondC96
import Verif.Decomp.LayoutEx

/-! # C96: tools that are right exist, and what is false of `svdBond` -/

noncomputable section

namespace Verif.SvdBond

open Finset Verif.Limits Verif.DmrgNum Matrix

variable {𝕜 : Type*} [RCLike 𝕜]

theorem exists_eig' (a b : ℕ) (H : Matrix (Fin a × Fin b) (Fin a × Fin b) 𝕜) :
    ∃ q : (Fin (a * b) → ℝ) × Matrix (Fin a × Fin b) (Fin (a * b)) 𝕜, H.IsHermitian →
      Antitone q.1 ∧ q.2ᴴ * q.2 = 1 ∧ H = q.2 * Matrix.diagonal (fun j => (q.1 j : 𝕜)) * q.2ᴴ := by
  by_cases hH : H.IsHermitian
  · let e : Fin (a * b) ≃ Fin a × Fin b := finProdFinEquiv.symm
    have hA : (H.submatrix e e)ᴴ = H.submatrix e e := by rw [Matrix.conjTranspose_submatrix, hH]
    obtain ⟨U, d, h1, h2, h3⟩ := SvdRef.exists_eig hA
    refine ⟨(fun j => d (Fin.rev j), U.submatrix e.symm Fin.revPerm), fun _ => ⟨fun i j hij => h3 (Fin.rev_le_rev.2 hij), ?_, ?_⟩⟩
    · dsimp only
      rw [Matrix.conjTranspose_submatrix, Matrix.submatrix_mul_equiv _ _ _ e.symm, h1, Matrix.submatrix_one_equiv]
    · dsimp only
      have hd : Matrix.diagonal (fun j => ((d (Fin.rev j) : ℝ) : 𝕜)) = (SvdRef.dg d : Matrix _ _ 𝕜).submatrix Fin.revPerm Fin.revPerm := by
        ext i j
        simp [SvdRef.dg, Matrix.diagonal_apply]
      rw [hd, Matrix.conjTranspose_submatrix, Matrix.submatrix_mul_equiv _ _ _ Fin.revPerm, Matrix.submatrix_mul_equiv _ _ _ Fin.revPerm, ← h2,
        Matrix.submatrix_submatrix]
      simp
  · exact ⟨(fun _ => 0, 0), fun h => absurd h hH⟩

theorem exists_svd' (a b c d : ℕ) (A : Matrix (Fin a × Fin b) (Fin c × Fin d) 𝕜) :
    ∃ q : Matrix (Fin a × Fin b) (Fin (min (a * b) (c * d))) 𝕜 × (Fin (min (a * b) (c * d)) → ℝ) × Matrix (Fin c × Fin d) (Fin (min (a * b) (c * d))) 𝕜,
      Antitone q.2.1 ∧ (∀ j, 0 ≤ q.2.1 j) ∧ q.1ᴴ * q.1 = 1 ∧ q.2.2ᴴ * q.2.2 = 1 ∧ A = q.1 * Matrix.diagonal (fun j => (q.2.1 j : 𝕜)) * q.2.2ᴴ := by
  let e : Fin (a * b) ≃ Fin a × Fin b := finProdFinEquiv.symm
  let f : Fin (c * d) ≃ Fin c × Fin d := finProdFinEquiv.symm
  obtain ⟨o, ho⟩ := Layout.exists_svd (A.submatrix e f)
  refine ⟨(o.U.submatrix e.symm id, o.D, o.V.submatrix f.symm id), ho.anti, ho.nonneg, ?_, ?_, ?_⟩
  · dsimp only
    rw [Matrix.conjTranspose_submatrix, Matrix.submatrix_mul_equiv _ _ _ e.symm, ho.u]
    simp
  · dsimp only
    rw [Matrix.conjTranspose_submatrix, Matrix.submatrix_mul_equiv _ _ _ f.symm, ho.v]
    simp
  · dsimp only
    have h := congrArg (fun z => Matrix.submatrix z e.symm f.symm) ho.eq
    rw [Matrix.submatrix_submatrix] at h
    simp only [Equiv.self_comp_symm, Matrix.submatrix_id_id] at h
    rw [h]
    ext i j
    simp [Matrix.mul_apply, SvdRef.dg]

/-- Tools that are right exist. -/
theorem C96_tools : ∃ T : Tools 𝕜, T.Right := by
  choose E hE using exists_eig' (𝕜 := 𝕜)
  choose S hS using exists_svd' (𝕜 := 𝕜)
  exact ⟨⟨E, S, 1⟩, fun a b H h => (hE a b H h).1, fun a b H h => (hE a b H h).2.1, fun a b H h => (hE a b H h).2.2, fun a b c d A => (hS a b c d A).1,
    fun a b c d A => (hS a b c d A).2.1, fun a b c d A => (hS a b c d A).2.2.1, fun a b c d A => (hS a b c d A).2.2.2.1,
    fun a b c d A => (hS a b c d A).2.2.2.2, one_pos⟩

/-- The options `{"Cutoff=",1E-8,"MaxDim=",m,"Noise=",noise,"RespectDegenerate=",respect}`. -/
def opts (m : Int) (noise : ℝ) (respect : Bool) : Opts := ⟨some (1 / 10 ^ 8), some m, 1, none, false, true, respect, false, false, noise⟩

theorem opts_ok {m : Int} (hm : 1 ≤ m) (noise : ℝ) (respect : Bool) : (opts m noise respect).Ok :=
  ⟨fun x hx => by cases hx; exact hm, le_refl _, fun c hc => by cases hc; positivity, by simp [opts]⟩

theorem opts_std (m : Int) (noise : ℝ) (respect : Bool) : (opts m noise respect).Std := ⟨rfl, rfl, rfl⟩

theorem opts_den (m : Int) (noise : ℝ) (respect : Bool) : ¬ useSvd (opts m noise respect) := by
  rintro (h | h)
  · cases h
  · have := h.2
    simp only [opts, Option.getD_some] at this
    norm_num at this

/-- Two spins in the state `↑↑ + ↓↓`. -/
def bell : Block ℝ 1 2 2 1 := WithLp.toLp 2 fun i => if i.2.1 = i.2.2.1 then 1 else 0

/-- The theorem applies: `MaxDim` 2, and the discarded part is within the cutoff. -/
example : ∃ T : Tools ℝ, T.Right ∧ ∀ dir, ∃ p, split T (opts 2 0 true) none dir 1 2 2 1 bell = .ok p ∧ err bell p ≤ 1 / 10 ^ 8 * ‖bell‖ ^ 2 ∧ ‖bell‖ ^ 2 = 2 := by
  obtain ⟨T, hT⟩ := C96_tools (𝕜 := ℝ)
  refine ⟨T, hT, fun dir => ?_⟩
  obtain ⟨p, h1, h2⟩ := C96_split_partial hT (opts_ok (m := 2) (by norm_num) 0 true) rfl none dir (by norm_num) (by norm_num) bell
  have := (h2.cut (opts_std _ _ _) (.inl (by cases dir <;> simp [half, Opts.M, opts]))).2
  refine ⟨p, h1, by simpa [noiseSq, Opts.c, opts] using this, ?_⟩
  rw [EuclideanSpace.norm_sq_eq]
  have : (#{x : Pl 1 2 2 1 | x.2.1 = x.2.2.1}) = 2 := by decide
  simp [bell, this]

/-- With `MaxDim` 1, degeneracies not respected: as good as any product state. -/
example : ∃ T : Tools ℝ, T.Right ∧ ∃ p, split T (opts 1 0 false) none .left 1 2 2 1 bell = .ok p ∧ p.1.r = 1 ∧
    ∀ q : Site ℝ × Site ℝ, q.1.r = 1 → err bell p ≤ max (err bell q) (1 / 10 ^ 8 * ‖bell‖ ^ 2) := by
  obtain ⟨T, hT⟩ := C96_tools (𝕜 := ℝ)
  obtain ⟨p, h1, h2⟩ := C96_split_partial hT (opts_ok (le_refl _) 0 false) rfl none .left (by norm_num) (by norm_num) bell
  obtain ⟨a, b⟩ := h2.best (opts_std _ _ _) (.inl rfl) rfl
  have hm := h2.max rfl 1 rfl
  exact ⟨T, hT, p, h1, by omega, fun q hq => by simpa [Opts.c, opts] using b q (by simpa [Opts.M, opts] using hq)⟩

/-- The eigenvalues of the unit matrix. -/
theorem eig_one {T : Tools 𝕜} (hT : T.Right) {a b : ℕ} (j : Fin (a * b)) : (T.eig a b 1).1 j = 1 := by
  have hH : (1 : Matrix (Fin a × Fin b) (Fin a × Fin b) 𝕜).IsHermitian := Matrix.conjTranspose_one
  have h1 := hT.orth a b _ hH
  have h2 := hT.eig a b _ hH
  generalize T.eig a b 1 = q at h1 h2 ⊢
  have h3 : q.2ᴴ * (1 : Matrix (Fin a × Fin b) (Fin a × Fin b) 𝕜) * q.2 = Matrix.diagonal (fun j => (q.1 j : 𝕜)) := by
    rw [h2]
    simp only [Matrix.mul_assoc]
    rw [h1, Matrix.mul_one, ← Matrix.mul_assoc, h1, Matrix.one_mul]
  rw [Matrix.mul_one, h1] at h3
  have h4 := congrFun (congrFun h3 j) j
  rw [Matrix.one_apply_eq, Matrix.diagonal_apply_eq] at h4
  exact_mod_cast h4.symm

/-- Two equal values, `MaxDim` 1, degeneracies respected: nothing is kept. -/
theorem trunc_pair {eps : ℝ} (he : 0 < eps) : ∃ out, Decomp.truncate eps ⟨1, 1, 1 / 10 ^ 8, false, true, true⟩ [1, 1] = .ok out ∧ out.P.length = 0 := by
  obtain ⟨W, k, v, below, above, rfl, hc, hv, hg, ht⟩ := Decomp.truncate_long (eps := eps) (p := (1 : ℝ)) (p' := 1) (l := [])
    ⟨1, 1, 1 / 10 ^ 8, false, true, true⟩ (by simp [Decomp.Desc]) one_pos he (le_refl _) (le_refl _)
  have hk : k = 1 := by
    have h1 := hc.pos
    have h2 := hc.max
    dsimp only at h2
    omega
  subst hk
  have hw : Decomp.weights [(1 : ℝ), 1] = [1, 1] := by simp [Decomp.weights]
  rw [hw] at hg hv ht
  have hv1 : v = 1 := by simpa using hv.symm
  have hb : below = 1 := by
    have h1 := hg.below_pos
    have h2 := hg.below_le
    omega
  have ha : above = 1 := by
    have h1 := hg.above_le
    have h3 : ¬ above = 0 := by
      intro h0
      obtain ⟨h5, h6⟩ := hg.above_stop (by rw [h0]; simp)
      apply h6
      subst h0
      subst hv1
      simp [Decomp.tolOf]
    simp at h1
    omega
  subst hb ha
  refine ⟨_, ht, ?_⟩
  simp

/-- **C96 is false of the code when `MaxDim` separates equal values.** With the default `RespectDegenerate` nothing is kept of
`↑↑ + ↓↓` with `MaxDim` 1: the link has dimension 0 and the product is zero. -/
theorem C96_degenerate_counterexample {T : Tools ℝ} (hT : T.Right) : ∃ p, split T (opts 1 0 true) none .left 1 2 2 1 bell = .ok p ∧
    p.1.r = 0 ∧ ∀ i : Pl 1 2 2 1, prodOf p i = 0 := by
  have hr : rho (P := Empty) 0 (toMat bell) none = 1 := by
    unfold rho
    dsimp only
    ext i j
    rw [Matrix.mul_apply, Matrix.one_apply]
    simp only [toMat, bell, Matrix.of_apply, Matrix.conjTranspose_apply, star_trivial, Fintype.sum_prod_type, Fin.sum_univ_two]
    obtain ⟨i1, i2⟩ := i
    obtain ⟨j1, j2⟩ := j
    fin_cases i1 <;> fin_cases i2 <;> fin_cases j1 <;> fin_cases j2 <;> simp
  have hl : List.ofFn (T.eig 1 2 (rho (P := Empty) 0 (toMat bell) none)).1 = [1, 1] := by
    rw [hr]
    have : (T.eig 1 2 1).1 = fun _ => 1 := by
      funext j
      exact eig_one hT j
    rw [this]
    rfl
  obtain ⟨out, h1, h2⟩ := trunc_pair hT.eps
  have hk : keepD T.eps (opts 1 0 true) (1 * 2) (List.ofFn (T.eig 1 2 (rho (P := Empty) 0 (toMat bell) none)).1) = .ok 0 := by
    rw [hl]
    unfold keepD
    rw [if_pos (show (opts 1 0 true).doTrunc = true from rfl)]
    dsimp only [opts, Option.getD_some]
    rw [h1]
    dsimp only [Res.bind]
    rw [h2, if_neg (by norm_num)]
  refine ⟨sites (l := 1) (d₁ := 2) (d₂ := 2) (r := 1) 0 0 0, ?_, rfl, fun i => ?_⟩
  · unfold split
    rw [if_neg (opts_den _ _ _)]
    dsimp only
    unfold denmat
    rw [if_neg (by norm_num)]
    dsimp only
    rw [show (opts 1 0 true).noise = 0 from rfl, hk]
    simp only [Res.map]
    congr 2
    · ext i j; exact j.elim0
    · ext i j; exact i.elim0
  · rw [bval_sites, Matrix.mul_apply]
    exact Finset.sum_of_isEmpty _

/-- **C96 is false of the code with `UseSVD` and noise**: it is an error. -/
theorem C96_svd_counterexample (T : Tools 𝕜) (o : Opts) (hu : o.useSVD = true) (hn : o.noise > 0) (ph : Option (PH 𝕜)) (dir : Dir) {l d₁ d₂ r : ℕ}
    (y : Block 𝕜 l d₁ d₂ r) : split T o ph dir l d₁ d₂ r y = .throw := by
  unfold split
  rw [if_pos (.inl hu)]
  unfold bySvd
  rw [if_pos hn]
  rfl

/-- Two spins in the state `↑↑`. -/
def up : Block ℝ 1 2 2 1 := WithLp.toLp 2 fun i => if i.2.1 = 0 ∧ i.2.2.1 = 0 then 1 else 0

/-- An operator which flips the first spin. -/
def flip : PH ℝ := ⟨1, 1, 1, fun _ s' s _ => if s' = s then 0 else 1, fun _ s' s _ => if s' = s then 1 else 0, none, none⟩

/-- **C96 is false of the code with much noise.** The state `↑↑` has a link of dimension 1; with `MaxDim` 1 and noise 2 along the
flipped spin the product returned is zero. -/
theorem C96_noise_counterexample {T : Tools ℝ} (hT : T.Right) : ∃ p, split T (opts 1 2 false) (some flip) .left 1 2 2 1 up = .ok p ∧
    p.1.r = 1 ∧ ∀ i : Pl 1 2 2 1, prodOf p i = 0 := by
  let A : Matrix (Fin 1 × Fin 2) (Fin 2 × Fin 1) ℝ := toMat up
  have hA : ∀ i j, A i j = if i.2 = 0 ∧ j.1 = 0 then 1 else 0 := fun i j => rfl
  have hX : ∀ i j, noiseL flip up i j = if i.2 = 1 ∧ j.1.1 = 0 then 1 else 0 := by
    rintro ⟨i1, i2⟩ ⟨⟨j1, j2⟩, j3⟩
    rw [noiseL, Matrix.of_apply]
    simp only [flip, up, Fin.sum_univ_two]
    fin_cases i1 <;> fin_cases i2 <;> fin_cases j1 <;> fin_cases j2 <;> simp
  have h0 : A * Aᴴ + ((2 : ℝ)) • drho (noiseL flip up) = Matrix.diagonal fun i : Fin 1 × Fin 2 => if i.2 = 0 then (1 : ℝ) else 2 := by
    rw [drho_eq]
    have k1 : Fintype.card (Fin flip.k₁) = 1 := rfl
    have e1 : A * Aᴴ = Matrix.diagonal fun i : Fin 1 × Fin 2 => if i.2 = 0 then (1 : ℝ) else 0 := by
      ext ⟨i1, i2⟩ ⟨j1, j2⟩
      rw [Matrix.mul_apply, Matrix.diagonal_apply]
      simp only [Matrix.conjTranspose_apply, hA, star_trivial, Fintype.sum_prod_type, Fin.sum_univ_two]
      fin_cases i1 <;> fin_cases i2 <;> fin_cases j1 <;> fin_cases j2 <;> simp
    have e2 : noiseL flip up * (noiseL flip up)ᴴ = Matrix.diagonal fun i : Fin 1 × Fin 2 => if i.2 = 0 then (0 : ℝ) else 1 := by
      ext ⟨i1, i2⟩ ⟨j1, j2⟩
      rw [Matrix.mul_apply, Matrix.diagonal_apply]
      simp only [Matrix.conjTranspose_apply, hX, star_trivial, Fintype.sum_prod_type, Fin.sum_univ_two, Finset.sum_const, Finset.card_univ, k1]
      fin_cases i1 <;> fin_cases i2 <;> fin_cases j1 <;> fin_cases j2 <;> simp
    rw [e1, e2, ← Matrix.diagonal_smul, Matrix.diagonal_add]
    congr 1
    ext ⟨i1, i2⟩
    fin_cases i2 <;> simp
  have ht : tr (Matrix.diagonal fun i : Fin 1 × Fin 2 => if i.2 = 0 then (1 : ℝ) else 2) = 3 := by
    unfold tr
    simp [Fintype.sum_prod_type, Fin.sum_univ_two]
    norm_num
  have hr : rho 2 (toMat up) (some (noiseL flip up)) = Matrix.diagonal fun i : Fin 1 × Fin 2 => if i.2 = 0 then (1 / 3 : ℝ) else 2 / 3 := by
    have h0' : toMat up * (toMat up)ᴴ + ((2 : ℝ) : ℝ) • drho (noiseL flip up) = _ := h0
    unfold rho
    dsimp only
    rw [if_pos (by norm_num)]
    simp only [RCLike.ofReal_real_eq_id, id_eq]
    rw [h0', ht, if_pos (by norm_num), ← Matrix.diagonal_smul]
    congr 1
    ext ⟨i1, i2⟩
    fin_cases i2 <;> simp
    norm_num
  have hH : (rho 2 (toMat up) (some (noiseL flip up))).IsHermitian := by
    rw [hr]
    unfold Matrix.IsHermitian
    rw [Matrix.diagonal_conjTranspose]
    rfl
  have hU := hT.orth 1 2 _ hH
  have hE := hT.eig 1 2 _ hH
  have han := hT.anti 1 2 _ hH
  set q := T.eig 1 2 (rho 2 (toMat up) (some (noiseL flip up))) with hq
  rw [hr] at hE
  -- the trace
  have hsum : q.1 0 + q.1 1 = 1 := by
    have h := congrArg Matrix.trace hE
    rw [Matrix.trace_mul_comm, ← Matrix.mul_assoc, hU, Matrix.one_mul, Matrix.trace_diagonal, Matrix.trace_diagonal] at h
    have e := (Fin.sum_univ_two (M := ℝ) fun j => ((q.1 j : ℝ) : ℝ))
    have h2 : (∑ i : Fin 1 × Fin 2, if i.2 = 0 then (1 / 3 : ℝ) else 2 / 3) = 1 := by
      simp [Fintype.sum_prod_type, Fin.sum_univ_two]
      norm_num
    rw [h2] at h
    exact (h.trans e).symm
  have hle : q.1 1 ≤ q.1 0 := han (by decide)
  -- the first vector
  have hvec : q.2 (0, 0) 0 = 0 := by
    have h : (Matrix.diagonal fun i : Fin 1 × Fin 2 => if i.2 = 0 then (1 / 3 : ℝ) else 2 / 3) * q.2 =
        (q.2 * Matrix.diagonal fun j => ((q.1 j : ℝ) : ℝ)) * q.2ᴴ * q.2 := congrArg (fun z => z * q.2) hE
    rw [Matrix.mul_assoc, hU, Matrix.mul_one] at h
    have h1 := congrFun (congrFun h (0, 0)) 0
    rw [Matrix.diagonal_mul, Matrix.mul_diagonal] at h1
    simp only [if_true, RCLike.ofReal_real_eq_id, id_eq] at h1
    have h2 : (q.1 0 - 1 / 3) * q.2 (0, 0) 0 = 0 := by linarith
    rcases mul_eq_zero.1 h2 with h3 | h3
    · linarith
    · exact h3
  -- one vector is kept
  have hpos : ∀ x ∈ List.ofFn q.1, 0 ≤ x := by
    intro x hx
    obtain ⟨j, rfl⟩ := (List.mem_ofFn' _ _).1 hx
    have e2 : q.2ᴴ * (Matrix.diagonal fun i : Fin 1 × Fin 2 => if i.2 = 0 then (1 / 3 : ℝ) else 2 / 3) * q.2 = Matrix.diagonal (fun j => ((q.1 j : ℝ) : ℝ)) := by
      rw [hE]
      simp only [Matrix.mul_assoc]
      rw [hU, Matrix.mul_one, ← Matrix.mul_assoc, hU, Matrix.one_mul]
      rfl
    have e3 := congrFun (congrFun e2 j) j
    rw [Matrix.diagonal_apply_eq, Matrix.mul_apply] at e3
    have e4 : q.1 j = ∑ i : Fin 1 × Fin 2, (if i.2 = 0 then (1 / 3 : ℝ) else 2 / 3) * (q.2 i j) ^ 2 := by
      refine e3.symm.trans (sum_congr rfl fun i _ => ?_)
      rw [Matrix.mul_diagonal, Matrix.conjTranspose_apply, star_trivial]
      ring
    rw [e4]
    refine sum_nonneg fun i _ => mul_nonneg ?_ (sq_nonneg _)
    split <;> norm_num
  obtain ⟨k, hk1, hk2⟩ := keepD_spec (o := opts 1 2 false) hT.eps (P := List.ofFn q.1) (by rw [← List.length_pos_iff, List.length_ofFn]; norm_num) (desc_ofFn han) hpos
    (opts_ok (le_refl _) 2 false).maxdim (opts_ok (le_refl _) 2 false).mindim (opts_ok (le_refl _) 2 false).cutoff
  have hk : k = 1 := by
    have h1 := (hk2.best (opts_std _ _ _) rfl).1
    have h2 := hk2.max rfl 1 rfl
    omega
  subst hk
  rw [List.length_ofFn] at hk1
  refine ⟨sites (r := 1) 1 (((cutCols q.2 1).map star).map star) (((cutCols q.2 1).map star)ᵀ * toMat up), ?_, rfl, ?_⟩
  · unfold split
    rw [if_neg (opts_den _ _ _)]
    dsimp only
    unfold denmat
    rw [if_neg (by norm_num)]
    dsimp only
    rw [show (opts 1 2 false).noise = 2 from rfl, ← hq, hk1]
    simp only [Res.map]
    rw [normD_false rfl]
  · intro i
    rw [bval_sites, Matrix.mul_apply]
    refine sum_eq_zero fun m _ => ?_
    have hz : (((cutCols q.2 1).map star)ᵀ * toMat up) m (i.2.2.1, i.2.2.2) = 0 := by
      rw [Matrix.mul_apply]
      refine sum_eq_zero fun x _ => ?_
      have hm : m = 0 := Subsingleton.elim _ _
      subst hm
      obtain ⟨x1, x2⟩ := x
      have hx1 : x1 = 0 := Subsingleton.elim _ _
      subst hx1
      by_cases hx2 : x2 = 0
      · subst hx2
        rw [Matrix.transpose_apply, Matrix.map_apply, cutCols_apply _ (by norm_num : 1 ≤ 1 * 2)]
        have : q.2 (0, 0) (Fin.castLE (by norm_num : 1 ≤ 1 * 2) 0) = 0 := hvec
        rw [this, star_zero, zero_mul]
      · have : toMat up (0, x2) (i.2.2.1, i.2.2.2) = 0 := (hA _ _).trans (if_neg fun h => hx2 h.1)
        rw [this, mul_zero]
    rw [hz, mul_zero]

end Verif.SvdBond
