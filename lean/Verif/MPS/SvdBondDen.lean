import Verif.MPS.SvdBondSpec
import Mathlib.Data.Matrix.ColumnRowPartitioned

/-! # What the two decompositions in `svdBond` return -/

noncomputable section

namespace Verif.SvdBond

open Finset Verif.Limits Verif.DmrgNum Matrix

variable {𝕜 : Type*} [RCLike 𝕜]

/-- The options that concern the truncation are the usual ones. -/
structure Opts.Std (o : Opts) : Prop where
  rel : o.rel = true
  abs : o.absolute = false
  min : o.mindim = 1

/-- `MaxDim`; the default is 5000. -/
def Opts.M (o : Opts) : ℕ := (o.maxdim.getD 5000).toNat

/-- `Cutoff`; the default is `1E-15`. -/
def Opts.c (o : Opts) : ℝ := o.cutoff.getD (1 / 10 ^ 15)

theorem keep_gen {eps : ℝ} (he : 0 < eps) {P : List ℝ} (hP : P ≠ []) (hd : Decomp.Desc P) (h0 : ∀ x ∈ P, 0 ≤ x) (o : Opts) {M : Int} (hM : 1 ≤ M)
    (hmin : 1 ≤ o.mindim) {c : ℝ} (hc : 0 ≤ c) : ∃ out, Decomp.truncate eps ⟨M, o.mindim, c, o.absolute, o.rel, o.respect⟩ P = .ok out ∧
      out.P.length ≤ P.length ∧ (out.P.length : Int) ≤ M ∧
      (o.Std → (P.drop M.toNat).sum = 0 → 1 ≤ out.P.length ∧ (P.drop out.P.length).sum ≤ c * P.sum) ∧
      (o.Std → o.respect = false → 1 ≤ out.P.length ∧ (P.drop out.P.length).sum ≤ max (P.drop M.toNat).sum (c * P.sum)) := by
  obtain ⟨out, h1, h2, h3⟩ := keep_le he hP hd h0 ⟨M, o.mindim, c, o.absolute, o.rel, o.respect⟩ hM hmin
  refine ⟨out, h1, h2, h3, fun hs hz => ?_, fun hs hr => ?_⟩
  · obtain ⟨out', g1, -, g3, -, g4⟩ := ApplyMPO.keep_all he hP hd h0 hc hM hz o.respect
    rw [hs.rel, hs.abs, hs.min] at h1
    obtain rfl : out = out' := by rw [h1] at g1; cases g1; rfl
    exact ⟨g3, g4⟩
  · obtain ⟨out', g1, -, g3, -, g4⟩ := ApplyMPO.keep_max he hP hd h0 hc hM
    rw [hs.rel, hs.abs, hs.min, hr] at h1
    obtain rfl : out = out' := by rw [h1] at g1; cases g1; rfl
    exact ⟨g3, g4⟩

/-- What is kept: `k` of the values `P`. `free`: there is no default for `MaxDim`. -/
structure Kept (free : Prop) (o : Opts) (P : List ℝ) (k : ℕ) : Prop where
  le : k ≤ P.length
  max : o.doTrunc = true → ∀ m, o.maxdim = some m → (k : Int) ≤ m
  all : o.doTrunc = false → k = P.length
  cut : o.Std → ((P.drop o.M).sum = 0 ∨ free ∧ o.maxdim = none) → 1 ≤ k ∧ (P.drop k).sum ≤ o.c * P.sum
  best : o.Std → o.respect = false → 1 ≤ k ∧ (P.drop k).sum ≤ Max.max (P.drop o.M).sum (o.c * P.sum)

theorem keep_none {free : Prop} {o : Opts} (hT : o.doTrunc = false) {P : List ℝ} (hP : P ≠ []) (h0 : ∀ x ∈ P, 0 ≤ x) (hc : 0 ≤ o.c) : Kept free o P P.length := by
  have h1 : 1 ≤ P.length := List.length_pos_iff.2 hP
  have h2 : 0 ≤ P.sum := List.sum_nonneg h0
  refine ⟨le_refl _, by simp [hT], fun _ => rfl, fun _ _ => ⟨h1, ?_⟩, fun _ _ => ⟨h1, ?_⟩⟩
  · rw [List.drop_length, List.sum_nil]; positivity
  · rw [List.drop_length, List.sum_nil]; exact le_max_of_le_right (by positivity)

theorem keepD_spec {eps : ℝ} (he : 0 < eps) {P : List ℝ} (hP : P ≠ []) (hd : Decomp.Desc P) (h0 : ∀ x ∈ P, 0 ≤ x) {o : Opts}
    (hM : ∀ m, o.maxdim = some m → 1 ≤ m) (hmin : 1 ≤ o.mindim) (hc : ∀ c, o.cutoff = some c → 0 ≤ c) :
    ∃ k, keepD eps o P.length P = .ok k ∧ Kept True o P k := by
  have h1 : 1 ≤ P.length := List.length_pos_iff.2 hP
  have h2 : 0 ≤ P.sum := List.sum_nonneg h0
  have hc1 : 0 ≤ o.c ∧ 0 ≤ o.cutoff.getD 0 ∧ o.cutoff.getD 0 ≤ o.c := by
    unfold Opts.c
    cases h : o.cutoff with
    | none => simp
    | some c => exact ⟨hc c h, hc c h, le_refl _⟩
  unfold keepD
  cases hT : o.doTrunc with
  | false => exact ⟨P.length, by simp, keep_none hT hP h0 hc1.1⟩
  | true =>
    have hM' : 1 ≤ o.maxdim.getD P.length := by
      cases h : o.maxdim with
      | none => simpa using h1
      | some m => exact hM m h
    obtain ⟨out, g1, g2, g3, g4, g5⟩ := keep_gen he hP hd h0 o hM' hmin hc1.2.1
    have hle : (P.drop (o.maxdim.getD P.length).toNat).sum ≤ (P.drop o.M).sum := by
      unfold Opts.M
      cases h : o.maxdim with
      | none =>
        simp only [Option.getD_none, Int.toNat_natCast, List.drop_length, List.sum_nil]
        exact ApplyMPO.drop_nonneg h0 _
      | some m => exact le_refl _
    have hcc := mul_le_mul_of_nonneg_right hc1.2.2 h2
    refine ⟨out.P.length, ?_, g2, fun _ m hm => ?_, by simp [hT], fun hs hz => ?_, fun hs hr => ?_⟩
    · simp only [if_true]
      rw [g1]
      dsimp only [Res.bind]
      rw [if_neg (by omega)]
    · rw [hm] at g3
      exact g3
    · have hz' : (P.drop (o.maxdim.getD P.length).toNat).sum = 0 := by
        rcases hz with hz | ⟨-, hz⟩
        · exact le_antisymm (hz ▸ hle) (ApplyMPO.drop_nonneg h0 _)
        · simp [hz]
      obtain ⟨a, b⟩ := g4 hs hz'
      exact ⟨a, b.trans hcc⟩
    · obtain ⟨a, b⟩ := g5 hs hr
      exact ⟨a, b.trans (max_le_max hle hcc)⟩

theorem keepS_spec {eps : ℝ} (he : 0 < eps) {P : List ℝ} (hP : P ≠ []) (hd : Decomp.Desc P) (h0 : ∀ x ∈ P, 0 ≤ x) {o : Opts}
    (hM : ∀ m, o.maxdim = some m → 1 ≤ m) (hmin : 1 ≤ o.mindim) (hc : ∀ c, o.cutoff = some c → 0 ≤ c) :
    ∃ k, keepS eps o P.length P = .ok k ∧ Kept False o P k := by
  have hc1 : 0 ≤ o.c := by
    unfold Opts.c
    cases h : o.cutoff with
    | none => simp
    | some c => exact hc c h
  unfold keepS
  cases hT : o.doTrunc with
  | false => exact ⟨P.length, by simp, keep_none hT hP h0 hc1⟩
  | true =>
    have hM' : 1 ≤ o.maxdim.getD 5000 := by
      cases h : o.maxdim with
      | none => simp
      | some m => exact hM m h
    obtain ⟨out, g1, g2, g3, g4, g5⟩ := keep_gen he hP hd h0 o hM' hmin hc1
    refine ⟨out.P.length, ?_, g2, fun _ m hm => ?_, by simp [hT], fun hs hz => g4 hs (hz.resolve_right fun h => h.1), g5⟩
    · simp only [if_true]
      have g1' := g1
      unfold Opts.c at g1'
      rw [g1']
      rfl
    · rw [hm] at g3
      exact g3

/-! ### The density matrix -/

section

variable {R C P : Type*} [Fintype R] [Fintype C] [Fintype P]

theorem drho_eq (X : Matrix R P 𝕜) : drho X = X * Xᴴ := by
  have : (X * Xᴴ)ᴴ = X * Xᴴ := by rw [Matrix.conjTranspose_mul, Matrix.conjTranspose_conjTranspose]
  rw [drho, this, ← two_smul 𝕜 (X * Xᴴ), smul_smul, inv_mul_cancel₀ two_ne_zero, one_smul]

/-- The noise that is added. -/
def noisePart (noise : ℝ) (X : Option (Matrix R P 𝕜)) (f : Matrix R P 𝕜 → ℝ) : ℝ :=
  open Classical in
  match X with
  | none => 0
  | some X => if noise > 0 then noise * f X else 0

theorem noisePart_nonneg (noise : ℝ) (X : Option (Matrix R P 𝕜)) {f : Matrix R P 𝕜 → ℝ} (hf : ∀ X, 0 ≤ f X) : 0 ≤ noisePart noise X f := by
  unfold noisePart
  split
  · exact le_refl _
  · split
    · next h => exact mul_nonneg h.le (hf _)
    · exact le_refl _

/-- The matrix and the noise side by side. -/
def aug (noise : ℝ) (A : Matrix R C 𝕜) (X : Option (Matrix R P 𝕜)) : Matrix R (C ⊕ P) 𝕜 :=
  open Classical in
  match X with
  | none => Matrix.fromCols A 0
  | some X => if noise > 0 then Matrix.fromCols A (((Real.sqrt noise : ℝ) : 𝕜) • X) else Matrix.fromCols A 0

theorem fromCols_self (A : Matrix R C 𝕜) (X : Matrix R P 𝕜) : Matrix.fromCols A X * (Matrix.fromCols A X)ᴴ = A * Aᴴ + X * Xᴴ := by
  rw [Matrix.conjTranspose_fromCols_eq_fromRows_conjTranspose, Matrix.fromCols_mul_fromRows]

theorem fro_fromCols (A : Matrix R C 𝕜) (X : Matrix R P 𝕜) : fro (Matrix.fromCols A X) = fro A + fro X := by
  unfold fro
  rw [← sum_add_distrib]
  refine sum_congr rfl fun i _ => ?_
  rw [Fintype.sum_sum_type]
  rfl

theorem fro_zero : fro (0 : Matrix R P 𝕜) = 0 := by simp [fro]

theorem part_zero {n : ℕ} (U : Matrix R (Fin n) 𝕜) (j : Fin n) : part U (0 : Matrix R P 𝕜) j = 0 := by simp [part]

theorem part_smul {n : ℕ} (U : Matrix R (Fin n) 𝕜) (s : ℝ) (X : Matrix R P 𝕜) (j : Fin n) : part U ((s : 𝕜) • X) j = s ^ 2 * part U X j := by
  unfold part
  rw [mul_sum]
  refine sum_congr rfl fun c _ => ?_
  rw [Matrix.mul_smul, Matrix.smul_apply, norm_smul, mul_pow, RCLike.norm_ofReal, sq_abs]

theorem part_fromCols {n : ℕ} (U : Matrix R (Fin n) 𝕜) (A : Matrix R C 𝕜) (X : Matrix R P 𝕜) (j : Fin n) :
    part U (Matrix.fromCols A X) j = part U A j + part U X j := by
  unfold part
  rw [Fintype.sum_sum_type]
  rw [Matrix.mul_fromCols]
  rfl

theorem part_aug {n : ℕ} (U : Matrix R (Fin n) 𝕜) (noise : ℝ) (A : Matrix R C 𝕜) (X : Option (Matrix R P 𝕜)) (j : Fin n) :
    part U (aug noise A X) j = part U A j + noisePart noise X fun X => part U X j := by
  unfold aug noisePart
  split
  · rw [part_fromCols, part_zero]
  · split
    · next h => rw [part_fromCols, part_smul, Real.sq_sqrt h.le]
    · rw [part_fromCols, part_zero]

theorem fro_aug (noise : ℝ) (A : Matrix R C 𝕜) (X : Option (Matrix R P 𝕜)) : fro (aug noise A X) = fro A + noisePart noise X fro := by
  unfold aug noisePart
  split
  · rw [fro_fromCols, fro_zero]
  · split
    · next h => rw [fro_fromCols, fro_smul, Real.sq_sqrt h.le]
    · rw [fro_fromCols, fro_zero]

/-- Approximations of the matrix and of the noise by the same vectors. -/
theorem fro_aug_sub (noise : ℝ) (A : Matrix R C 𝕜) (X : Option (Matrix R P 𝕜)) {M : ℕ} (G : Matrix R (Fin M) 𝕜) (H : Matrix (Fin M) C 𝕜)
    (H' : Matrix (Fin M) P 𝕜) : ∃ H'' : Matrix (Fin M) (C ⊕ P) 𝕜,
      fro (aug noise A X - G * H'') = fro (A - G * H) + noisePart noise X fun X => fro (X - G * H') := by
  have sub : ∀ (A A' : Matrix R C 𝕜) (X X' : Matrix R P 𝕜), Matrix.fromCols A X - Matrix.fromCols A' X' = Matrix.fromCols (A - A') (X - X') := by
    intro A A' X X'
    ext i j
    cases j <;> rfl
  unfold aug noisePart
  split
  · refine ⟨Matrix.fromCols H 0, ?_⟩
    rw [Matrix.mul_fromCols, sub, fro_fromCols, Matrix.mul_zero, sub_zero, fro_zero]
  · split
    · next h =>
      refine ⟨Matrix.fromCols H (((Real.sqrt noise : ℝ) : 𝕜) • H'), ?_⟩
      rw [Matrix.mul_fromCols, sub, fro_fromCols, Matrix.mul_smul, ← smul_sub, fro_smul, Real.sq_sqrt h.le]
    · refine ⟨Matrix.fromCols H 0, ?_⟩
      rw [Matrix.mul_fromCols, sub, fro_fromCols, Matrix.mul_zero, sub_zero, fro_zero]

/-- `rho` up to a factor. -/
theorem rho_eq (noise : ℝ) (A : Matrix R C 𝕜) (X : Option (Matrix R P 𝕜)) :
    ∃ c : ℝ, 0 < c ∧ rho noise A X = (c : 𝕜) • (aug noise A X * (aug noise A X)ᴴ) := by
  have plain : ∃ c : ℝ, 0 < c ∧ A * Aᴴ = (c : 𝕜) • (Matrix.fromCols A (0 : Matrix R P 𝕜) * (Matrix.fromCols A (0 : Matrix R P 𝕜))ᴴ) := by
    refine ⟨1, one_pos, ?_⟩
    rw [fromCols_self, Matrix.zero_mul, add_zero, RCLike.ofReal_one, one_smul]
  cases X with
  | none => exact plain
  | some X =>
    by_cases hn : noise > 0
    · have e : Matrix.fromCols A (((Real.sqrt noise : ℝ) : 𝕜) • X) * (Matrix.fromCols A (((Real.sqrt noise : ℝ) : 𝕜) • X))ᴴ =
          A * Aᴴ + (noise : 𝕜) • drho X := by
        rw [fromCols_self, drho_eq, Matrix.conjTranspose_smul, Matrix.smul_mul, Matrix.mul_smul, smul_smul, RCLike.star_def, RCLike.conj_ofReal,
          ← RCLike.ofReal_mul, Real.mul_self_sqrt hn.le]
      unfold rho aug
      simp only [if_pos hn]
      rw [e]
      split
      · next h => exact ⟨_, one_div_pos.2 (lt_trans (by positivity) h), rfl⟩
      · exact ⟨1, one_pos, by rw [RCLike.ofReal_one, one_smul]⟩
    · unfold rho aug
      simp only [if_neg hn]
      exact plain

end

/-! ### `denmatDecomp` -/

/-- The best approximation of rank `M` (Eckart and Young). -/
theorem eckartM {R C : Type*} [Fintype R] [Fintype C] {n : ℕ} {U : Matrix R (Fin n) 𝕜} (hU : Uᴴ * U = 1) {A : Matrix R C 𝕜} {l : Fin n → ℝ}
    (ha : Antitone l) (h0 : ∀ j, 0 ≤ l j) (hA : A * Aᴴ = U * Matrix.diagonal (fun j => (l j : 𝕜)) * Uᴴ) (M : ℕ) (G : Matrix R (Fin M) 𝕜)
    (H : Matrix (Fin M) C 𝕜) : ((List.ofFn l).drop M).sum ≤ fro (A - G * H) := by
  classical
  let E := EuclideanSpace 𝕜 R
  let f : C → E := fun c => WithLp.toLp 2 fun i => A i c
  let y : C → E := fun c => WithLp.toLp 2 fun i => (G * H) i c
  let g : Fin M → E := fun m => WithLp.toLp 2 fun i => G i m
  let u : Fin n → E := fun j => WithLp.toLp 2 fun i => U i j
  let lam : ℕ → ℝ := fun k => if h : k < n then l ⟨k, h⟩ else 0
  have inn : ∀ a b : R → 𝕜, inner 𝕜 (WithLp.toLp 2 a : E) (WithLp.toLp 2 b) = ∑ i, star (a i) * b i := by
    intro a b
    rw [PiLp.inner_apply]
    refine sum_congr rfl fun i _ => ?_
    rw [RCLike.inner_apply, RCLike.star_def, mul_comm]
  have hu : Orthonormal 𝕜 u := by
    rw [orthonormal_iff_ite]
    intro i j
    rw [inn]
    have := congrFun (congrFun hU i) j
    rw [Matrix.mul_apply, Matrix.one_apply] at this
    exact this
  have hS : Module.finrank 𝕜 (Submodule.span 𝕜 (Set.range g)) ≤ M := (finrank_range_le_card g).trans (by simp)
  have hy : ∀ c, y c ∈ Submodule.span 𝕜 (Set.range g) := by
    intro c
    have : y c = ∑ m, H m c • g m := by
      ext i
      rw [PiLp.toLp_apply, Matrix.mul_apply, WithLp.ofLp_sum, Finset.sum_apply]
      refine sum_congr rfl fun m _ => ?_
      rw [WithLp.ofLp_smul, Pi.smul_apply, smul_eq_mul, mul_comm]
    rw [this]
    exact Submodule.sum_mem _ fun m _ => Submodule.smul_mem _ _ (Submodule.subset_span ⟨m, rfl⟩)
  have hla : ∀ i j, i ≤ j → lam j ≤ lam i := by
    intro i j hij
    by_cases hj : j < n
    · rw [show lam j = l ⟨j, hj⟩ from dif_pos hj, show lam i = l ⟨i, by omega⟩ from dif_pos (by omega)]
      exact ha hij
    · rw [show lam j = 0 from dif_neg hj]
      by_cases hi : i < n
      · rw [show lam i = l ⟨i, hi⟩ from dif_pos hi]; exact h0 _
      · rw [show lam i = 0 from dif_neg hi]
  have hl0 : ∀ i, 0 ≤ lam i := by
    intro i
    by_cases hi : i < n
    · rw [show lam i = l ⟨i, hi⟩ from dif_pos hi]; exact h0 _
    · rw [show lam i = 0 from dif_neg hi]
  have hlv : ∀ v : E, ∑ p, ‖inner 𝕜 v (f p)‖ ^ 2 = ∑ k : Fin n, lam k * ‖inner 𝕜 v (u k)‖ ^ 2 := by
    intro v
    let vm : Matrix R (Fin 1) 𝕜 := Matrix.of fun i _ => v.ofLp i
    have hv : v = WithLp.toLp 2 v.ofLp := rfl
    have e1 : ((∑ p, ‖inner 𝕜 v (f p)‖ ^ 2 : ℝ) : 𝕜) = (vmᴴ * (A * Aᴴ) * vm) 0 0 := by
      have : vmᴴ * (A * Aᴴ) * vm = (vmᴴ * A) * (vmᴴ * A)ᴴ := by
        rw [Matrix.conjTranspose_mul, Matrix.conjTranspose_conjTranspose]
        simp only [Matrix.mul_assoc]
      rw [this, Matrix.mul_apply]
      push_cast
      refine sum_congr rfl fun c _ => ?_
      rw [Matrix.conjTranspose_apply, RCLike.star_def, RCLike.mul_conj]
      congr 3
      rw [hv, inn, Matrix.mul_apply]
      rfl
    have e2 : ((∑ k : Fin n, lam k * ‖inner 𝕜 v (u k)‖ ^ 2 : ℝ) : 𝕜) = (vmᴴ * (A * Aᴴ) * vm) 0 0 := by
      have : vmᴴ * (A * Aᴴ) * vm = (vmᴴ * U * Matrix.diagonal (fun j => (l j : 𝕜))) * (vmᴴ * U)ᴴ := by
        rw [hA, Matrix.conjTranspose_mul, Matrix.conjTranspose_conjTranspose]
        simp only [Matrix.mul_assoc]
      rw [this, Matrix.mul_apply]
      push_cast
      refine sum_congr rfl fun j _ => ?_
      have hj : inner 𝕜 v (u j) = (vmᴴ * U) 0 j := by rw [hv, inn, Matrix.mul_apply]; rfl
      rw [Matrix.mul_diagonal, Matrix.conjTranspose_apply, RCLike.star_def, hj, show lam j = l j from dif_pos j.2]
      rw [mul_comm ((vmᴴ * U) 0 j), mul_assoc, RCLike.mul_conj]
    have := e1.trans e2.symm
    exact_mod_cast this
  have key := ApplyMPO.eckart f y _ hS hy hu hla hl0 hlv
  have hf : ∀ a : R → 𝕜, ‖(WithLp.toLp 2 a : E)‖ ^ 2 = ∑ i, ‖a i‖ ^ 2 := fun a => EuclideanSpace.norm_sq_eq _
  have t1 : ∑ p, ‖f p‖ ^ 2 = ∑ j, l j := by
    have e1 : ∑ p, ‖f p‖ ^ 2 = fro A := by
      unfold fro
      rw [sum_comm]
      exact sum_congr rfl fun c _ => hf _
    rw [e1]
    have : ((fro A : ℝ) : 𝕜) = ((∑ j, l j : ℝ) : 𝕜) := by
      rw [fro_trace, Matrix.trace_mul_comm, hA, Matrix.trace_mul_comm, ← Matrix.mul_assoc, hU, Matrix.one_mul, Matrix.trace_diagonal]
      push_cast
      rfl
    exact_mod_cast this
  have t2 : ∑ p, ‖f p - y p‖ ^ 2 = fro (A - G * H) := by
    unfold fro
    rw [sum_comm]
    exact sum_congr rfl fun c _ => hf _
  rw [t1, t2] at key
  have t3 : ∑ k ∈ range M, lam k + ((List.ofFn l).drop M).sum = ∑ j, l j := by
    by_cases hM : M ≤ n
    · rw [sum_drop l hM, Finset.sum_range]
      have : ∑ i : Fin M, lam i = ∑ j : Fin M, l (Fin.castLE hM j) := sum_congr rfl fun i _ => dif_pos (lt_of_lt_of_le i.2 hM)
      rw [this]
      ring
    · rw [List.drop_eq_nil_of_le (by simp; omega), List.sum_nil, add_zero]
      have : ∑ k ∈ range n, lam k = ∑ k ∈ range M, lam k := by
        apply sum_subset (by simp; omega)
        intro x _ hx
        exact dif_neg (by simpa using hx)
      rw [← this, Finset.sum_range]
      exact sum_congr rfl fun i _ => dif_pos i.2
  linarith

/-- The square of the norm together with that of the noise. -/
def weight {R C P : Type*} [Fintype R] [Fintype C] [Fintype P] (noise : ℝ) (A : Matrix R C 𝕜) (X : Option (Matrix R P 𝕜)) : ℝ :=
  fro A + noisePart noise X fro

/-- What both decompositions return: vectors `Q` and the projection of `A` onto them. The discarded part is within the cutoff if the
matrix and the noise have rank at most `MaxDim`; in general it is compared with the approximations of that rank. -/
structure Dec {R C P : Type*} [Fintype R] [Fintype C] [Fintype P] (free : Prop) (o : Opts) (A : Matrix R C 𝕜) (noise : ℝ)
    (X : Option (Matrix R P 𝕜)) (k : ℕ) (Q : Matrix R (Fin k) 𝕜) (N : Matrix (Fin k) C 𝕜) : Prop where
  orth : Qᴴ * Q = 1
  proj : N = Qᴴ * A
  max : o.doTrunc = true → ∀ m, o.maxdim = some m → (k : Int) ≤ m
  all : o.doTrunc = false → Q * N = A
  cut : o.Std → ((∃ (G : Matrix R (Fin o.M) 𝕜) (H : Matrix (Fin o.M) C 𝕜) (H' : Matrix (Fin o.M) P 𝕜),
    A = G * H ∧ noisePart noise X (fun X => fro (X - G * H')) = 0) ∨ free ∧ o.maxdim = none) → 1 ≤ k ∧ fro (A - Q * N) ≤ o.c * weight noise A X
  best : o.Std → o.respect = false → 1 ≤ k ∧ ∀ (G : Matrix R (Fin o.M) 𝕜) (H : Matrix (Fin o.M) C 𝕜) (H' : Matrix (Fin o.M) P 𝕜),
    fro (A - Q * N) ≤ Max.max (fro (A - G * H) + noisePart noise X fun X => fro (X - G * H')) (o.c * weight noise A X)

theorem fro_eq_zero {R C : Type*} [Fintype R] [Fintype C] {A : Matrix R C 𝕜} (h : fro A ≤ 0) : A = 0 := by
  have h1 : fro A = 0 := le_antisymm h (fro_nonneg A)
  unfold fro at h1
  ext i j
  have h2 := (sum_eq_zero_iff_of_nonneg fun i _ => sum_nonneg fun j _ => by positivity).1 h1 i (mem_univ i)
  have h3 := (sum_eq_zero_iff_of_nonneg fun j _ => by positivity).1 h2 j (mem_univ j)
  simpa using h3

/-- The common part: eigenvectors of `rho`, of which `k` are kept. -/
theorem dec_of {R C P : Type*} [Fintype R] [Fintype C] [Fintype P] [DecidableEq R] {free : Prop} {o : Opts} {A : Matrix R C 𝕜} {noise : ℝ}
    {X : Option (Matrix R P 𝕜)} {n : ℕ} {U : Matrix R (Fin n) 𝕜} (hU : Uᴴ * U = 1) {l : Fin n → ℝ} (ha : Antitone l) (h0 : ∀ j, 0 ≤ l j)
    {s : ℝ} (hs : 0 < s) (hl : (s : 𝕜) • (aug noise A X * (aug noise A X)ᴴ) = U * Matrix.diagonal (fun j => (l j : 𝕜)) * Uᴴ)
    {k : ℕ} (hk : Kept free o (List.ofFn l) k) : Dec free o A noise X k (cutCols U k) ((cutCols U k)ᴴ * A) := by
  have hkn : k ≤ n := by simpa using hk.le
  have hQ := cutCols_orth hU hkn
  set B := aug noise A X with hB
  -- the values are those of the matrix with the noise
  have hm : B * Bᴴ = U * Matrix.diagonal (fun j => ((s⁻¹ * l j : ℝ) : 𝕜)) * Uᴴ := by
    have : Matrix.diagonal (fun j => ((s⁻¹ * l j : ℝ) : 𝕜)) = ((s⁻¹ : ℝ) : 𝕜) • Matrix.diagonal (fun j => (l j : 𝕜)) := by
      rw [← Matrix.diagonal_smul]
      congr 1
      ext j
      simp
    rw [this, Matrix.mul_smul, Matrix.smul_mul, ← hl, smul_smul, ← RCLike.ofReal_mul, inv_mul_cancel₀ hs.ne', RCLike.ofReal_one, one_smul]
  have hp : ∀ j, part U B j = s⁻¹ * l j := by
    intro j
    have e1 := part_diag U B j
    have e2 : Uᴴ * (B * Bᴴ) * U = Matrix.diagonal (fun j => ((s⁻¹ * l j : ℝ) : 𝕜)) := by
      rw [hm]
      simp only [Matrix.mul_assoc]
      rw [hU, Matrix.mul_one, ← Matrix.mul_assoc, hU, Matrix.one_mul]
    rw [e2, Matrix.diagonal_apply_eq] at e1
    exact_mod_cast e1
  have hsum : ∑ j, part U B j = fro B := by
    have : ((fro B : ℝ) : 𝕜) = ((∑ j, s⁻¹ * l j : ℝ) : 𝕜) := by
      rw [fro_trace, Matrix.trace_mul_comm, hm, Matrix.trace_mul_comm, ← Matrix.mul_assoc, hU, Matrix.one_mul, Matrix.trace_diagonal]
      push_cast
      rfl
    have h2 : fro B = ∑ j, s⁻¹ * l j := by exact_mod_cast this
    rw [h2]
    exact sum_congr rfl fun j _ => hp j
  have hw : fro B = weight noise A X := fro_aug noise A X
  -- what is thrown away
  have herr : ∀ {D : Type _} [Fintype D] (Y : Matrix R D 𝕜), fro (Y - cutCols U k * ((cutCols U k)ᴴ * Y)) =
      fro Y - ∑ j : Fin k, part U Y (Fin.castLE hkn j) := fun Y => by rw [fro_error hQ, fro_cut U Y hkn]
  have hAB : fro (A - cutCols U k * ((cutCols U k)ᴴ * A)) ≤ fro (B - cutCols U k * ((cutCols U k)ᴴ * B)) := by
    have e : ∀ (Z : Matrix R P 𝕜), fro (Matrix.fromCols A Z - cutCols U k * ((cutCols U k)ᴴ * Matrix.fromCols A Z)) =
        fro (A - cutCols U k * ((cutCols U k)ᴴ * A)) + fro (Z - cutCols U k * ((cutCols U k)ᴴ * Z)) := by
      intro Z
      rw [← fro_fromCols, Matrix.mul_fromCols, Matrix.mul_fromCols]
      congr 1
      ext i j
      cases j <;> rfl
    have : ∃ Z : Matrix R P 𝕜, B = Matrix.fromCols A Z := by
      rw [hB]
      unfold aug
      split
      · exact ⟨_, rfl⟩
      · split
        · exact ⟨_, rfl⟩
        · exact ⟨_, rfl⟩
    obtain ⟨Z, hZ⟩ := this
    rw [hZ, e]
    have := fro_nonneg (Z - cutCols U k * ((cutCols U k)ᴴ * Z))
    linarith
  have hBl : fro (B - cutCols U k * ((cutCols U k)ᴴ * B)) = s⁻¹ * ((List.ofFn l).drop k).sum := by
    rw [herr, ← hsum, ← drop_mul, ← sum_drop (part U B) hkn]
    congr 3
    ext j
    exact hp j
  have hPs : (List.ofFn l).sum = s * weight noise A X := by
    rw [← hw, ← hsum, List.sum_ofFn, mul_sum]
    refine sum_congr rfl fun j _ => ?_
    rw [hp, ← mul_assoc, mul_inv_cancel₀ hs.ne', one_mul]
  have heck : ∀ (G : Matrix R (Fin o.M) 𝕜) (H : Matrix (Fin o.M) C 𝕜) (H' : Matrix (Fin o.M) P 𝕜), s⁻¹ * ((List.ofFn l).drop o.M).sum ≤
      fro (A - G * H) + noisePart noise X fun X => fro (X - G * H') := by
    intro G H H'
    obtain ⟨H'', hH⟩ := fro_aug_sub noise A X G H H'
    rw [← hH, ← drop_mul]
    refine eckartM hU (fun i j hij => ?_) (fun j => ?_) hm o.M G H''
    · exact mul_le_mul_of_nonneg_left (ha hij) (inv_nonneg.2 hs.le)
    · exact mul_nonneg (inv_nonneg.2 hs.le) (h0 j)
  have hd0 : ∀ m, 0 ≤ ((List.ofFn l).drop m).sum := fun m => ApplyMPO.drop_nonneg (fun x hx => by
    obtain ⟨j, rfl⟩ := (List.mem_ofFn' _ _).1 hx
    exact h0 j) m
  refine ⟨hQ, rfl, hk.max, fun hf => ?_, fun hst hlow => ?_, fun hst hr => ?_⟩
  · have h2 := hAB
    rw [hBl, hk.all hf, List.drop_length, List.sum_nil, mul_zero] at h2
    rw [hk.all hf]
    exact (sub_eq_zero.1 (fro_eq_zero h2)).symm
  · have hz : ((List.ofFn l).drop o.M).sum = 0 ∨ free ∧ o.maxdim = none := by
      refine hlow.imp_left fun ⟨G, H, H', hA, hX⟩ => ?_
      have := heck G H H'
      rw [hX, ← hA, sub_self, fro_zero, add_zero] at this
      have h3 : ((List.ofFn l).drop o.M).sum ≤ 0 := by
        by_contra hc
        have := mul_pos (inv_pos.2 hs) (not_le.1 hc)
        linarith
      exact le_antisymm h3 (hd0 o.M)
    obtain ⟨g1, g2⟩ := hk.cut hst hz
    refine ⟨g1, hAB.trans ?_⟩
    rw [hBl]
    rw [hPs] at g2
    have := mul_le_mul_of_nonneg_left g2 (inv_nonneg.2 hs.le)
    calc _ ≤ _ := this
      _ = o.c * weight noise A X := by field_simp
  · obtain ⟨g1, g2⟩ := hk.best hst hr
    refine ⟨g1, fun G H H' => hAB.trans ?_⟩
    rw [hBl]
    rw [hPs] at g2
    have h4 := mul_le_mul_of_nonneg_left g2 (inv_nonneg.2 hs.le)
    refine h4.trans ?_
    rw [mul_max_of_nonneg _ _ (inv_nonneg.2 hs.le)]
    refine max_le_max (heck G H H') (le_of_eq ?_)
    field_simp

/-- `denmatDecomp`. -/
theorem denmat_spec {C P : Type*} [Fintype C] [Fintype P] {T : Tools 𝕜} (hT : T.Right) {o : Opts} (hM : ∀ m, o.maxdim = some m → 1 ≤ m)
    (hmin : 1 ≤ o.mindim) (hc : ∀ c, o.cutoff = some c → 0 ≤ c) {a b : ℕ} (hab : 1 ≤ a * b) (A : Matrix (Fin a × Fin b) C 𝕜)
    (X : Option (Matrix (Fin a × Fin b) P 𝕜)) : ∃ k Q N, denmat T o A X = .ok ⟨k, Q, N⟩ ∧
      Dec True o A o.noise X k Q N := by
  obtain ⟨s, hs, hr⟩ := rho_eq o.noise A X
  have hH : (rho o.noise A X).IsHermitian := by
    rw [hr]
    unfold Matrix.IsHermitian
    rw [Matrix.conjTranspose_smul, RCLike.star_def, RCLike.conj_ofReal, Matrix.conjTranspose_mul, Matrix.conjTranspose_conjTranspose]
  set q := T.eig a b (rho o.noise A X) with hq
  have hU : q.2ᴴ * q.2 = 1 := hT.orth a b _ hH
  have hl : (s : 𝕜) • (aug o.noise A X * (aug o.noise A X)ᴴ) = q.2 * Matrix.diagonal (fun j => (q.1 j : 𝕜)) * q.2ᴴ := by
    rw [← hr]
    exact hT.eig a b _ hH
  have ha : Antitone q.1 := hT.anti a b _ hH
  have h0 : ∀ j, 0 ≤ q.1 j := by
    intro j
    have e2 : q.2ᴴ * ((s : 𝕜) • (aug o.noise A X * (aug o.noise A X)ᴴ)) * q.2 = Matrix.diagonal (fun j => (q.1 j : 𝕜)) := by
      rw [hl]
      simp only [Matrix.mul_assoc]
      rw [hU, Matrix.mul_one, ← Matrix.mul_assoc, hU, Matrix.one_mul]
    have e3 := congrFun (congrFun e2 j) j
    rw [Matrix.diagonal_apply_eq, Matrix.mul_smul, Matrix.smul_mul, Matrix.smul_apply, ← part_diag, smul_eq_mul] at e3
    have e4 : s * part q.2 (aug o.noise A X) j = q.1 j := by exact_mod_cast e3
    rw [← e4]
    exact mul_nonneg hs.le (part_nonneg _ _ _)
  have hlen : (List.ofFn q.1).length = a * b := List.length_ofFn
  have hne : List.ofFn q.1 ≠ [] := by
    rw [← List.length_pos_iff, hlen]
    exact hab
  obtain ⟨k, hk1, hk2⟩ := keepD_spec hT.eps hne (desc_ofFn ha) (fun x hx => by
    obtain ⟨j, rfl⟩ := (List.mem_ofFn' _ _).1 hx
    exact h0 j) hM hmin hc
  rw [hlen] at hk1
  refine ⟨k, cutCols q.2 k, (cutCols q.2 k)ᴴ * A, ?_, dec_of hU ha h0 hs hl hk2⟩
  unfold denmat
  rw [if_neg (by omega)]
  dsimp only
  rw [← hq, hk1]
  have : ((cutCols q.2 k).map star).map star = cutCols q.2 k := by
    ext i j
    simp
  simp only [Res.map, this]
  rfl

/-! ### `svd` -/

theorem aug_none {R C P : Type*} [Fintype R] [Fintype C] [Fintype P] (noise : ℝ) (A : Matrix R C 𝕜) :
    aug noise A (none : Option (Matrix R P 𝕜)) * (aug noise A (none : Option (Matrix R P 𝕜)))ᴴ = A * Aᴴ := by
  unfold aug
  rw [fromCols_self, Matrix.zero_mul, add_zero]

theorem cut_diag {R C : Type*} [Fintype R] [Fintype C] {n : ℕ} {U : Matrix R (Fin n) 𝕜} (hU : Uᴴ * U = 1) {V : Matrix C (Fin n) 𝕜} {D : Fin n → ℝ}
    {A : Matrix R C 𝕜} (hA : A = U * Matrix.diagonal (fun j => (D j : 𝕜)) * Vᴴ) {k : ℕ} (hk : k ≤ n) :
    Matrix.diagonal (fun j : Fin k => ((if h : j.val < n then D ⟨j.val, h⟩ else 0 : ℝ) : 𝕜)) * ((cutCols V k).map star)ᵀ = (cutCols U k)ᴴ * A := by
  have h : Uᴴ * A = Matrix.diagonal (fun j => (D j : 𝕜)) * Vᴴ := by rw [hA, ← Matrix.mul_assoc, ← Matrix.mul_assoc, hU, Matrix.one_mul]
  ext i c
  have h2 := congrFun (congrFun h (Fin.castLE hk i)) c
  rw [Matrix.diagonal_mul] at h2 ⊢
  rw [dif_pos (by omega : i.val < n)]
  rw [Matrix.mul_apply] at h2 ⊢
  simp only [Matrix.conjTranspose_apply, Matrix.transpose_apply, Matrix.map_apply, cutCols_apply _ hk] at h2 ⊢
  rw [h2]
  rfl

/-- The values kept by `svd` and the projection, without normalization. -/
theorem svd_left {T : Tools 𝕜} (hT : T.Right) {o : Opts} {a b c d : ℕ} (A : Matrix (Fin a × Fin b) (Fin c × Fin d) 𝕜) {k : ℕ}
    (hk : Kept False o (List.ofFn fun j => (T.svd a b c d A).2.1 j * (T.svd a b c d A).2.1 j) k) :
    Dec (P := Empty) False o A 0 none k (cutCols (T.svd a b c d A).1 k) (Matrix.diagonal
      (fun j : Fin k => ((if h : j.val < min (a * b) (c * d) then (T.svd a b c d A).2.1 ⟨j.val, h⟩ else 0 : ℝ) : 𝕜)) * ((cutCols (T.svd a b c d A).2.2 k).map star)ᵀ) := by
  have hA := hT.svd a b c d A
  have hU := hT.sU a b c d A
  have hV := hT.sV a b c d A
  have ha := hT.santi a b c d A
  have h0 := hT.snonneg a b c d A
  set q := T.svd a b c d A with hq
  have hkn : k ≤ min (a * b) (c * d) := by simpa using hk.le
  rw [cut_diag hU hA hkn]
  refine dec_of hU (fun i j hij => mul_self_le_mul_self (h0 j) (ha hij)) (fun j => mul_self_nonneg _) one_pos ?_ hk
  rw [aug_none, RCLike.ofReal_one, one_smul]
  have hd : (Matrix.diagonal fun j => (q.2.1 j : 𝕜))ᴴ = Matrix.diagonal fun j => (q.2.1 j : 𝕜) := by
    rw [Matrix.diagonal_conjTranspose]
    congr 1
    ext j
    rw [Pi.star_apply, RCLike.star_def, RCLike.conj_ofReal]
  calc A * Aᴴ = (q.1 * Matrix.diagonal (fun j => (q.2.1 j : 𝕜)) * q.2.2ᴴ) * (q.1 * Matrix.diagonal (fun j => (q.2.1 j : 𝕜)) * q.2.2ᴴ)ᴴ := by rw [← hA]
    _ = q.1 * (Matrix.diagonal (fun j => (q.2.1 j : 𝕜)) * (q.2.2ᴴ * q.2.2) * Matrix.diagonal (fun j => (q.2.1 j : 𝕜))) * q.1ᴴ := by
      rw [Matrix.conjTranspose_mul, Matrix.conjTranspose_mul, hd, Matrix.conjTranspose_conjTranspose]
      simp only [Matrix.mul_assoc]
    _ = _ := by
      rw [hV, Matrix.mul_one, Matrix.diagonal_mul_diagonal]
      simp only [RCLike.ofReal_mul]

theorem svd_right {T : Tools 𝕜} (hT : T.Right) {o : Opts} {a b c d : ℕ} (A : Matrix (Fin a × Fin b) (Fin c × Fin d) 𝕜) {k : ℕ}
    (hk : Kept False o (List.ofFn fun j => (T.svd a b c d A).2.1 j * (T.svd a b c d A).2.1 j) k) :
    Dec (P := Empty) False o Aᵀ 0 none k ((cutCols (T.svd a b c d A).2.2 k).map star) (cutCols (T.svd a b c d A).1 k * Matrix.diagonal
      (fun j : Fin k => ((if h : j.val < min (a * b) (c * d) then (T.svd a b c d A).2.1 ⟨j.val, h⟩ else 0 : ℝ) : 𝕜)))ᵀ := by
  have hA := hT.svd a b c d A
  have hU := hT.sU a b c d A
  have hV := hT.sV a b c d A
  have ha := hT.santi a b c d A
  have h0 := hT.snonneg a b c d A
  set q := T.svd a b c d A with hq
  have hkn : k ≤ min (a * b) (c * d) := by simpa using hk.le
  have sm : ∀ {R C : Type} (B : Matrix R C 𝕜), B.map star = Bᴴᵀ := fun B => by ext i j; rfl
  have sm2 : ∀ {R C : Type} (B : Matrix R C 𝕜), (B.map star)ᴴ = Bᵀ := fun B => by
    ext i j
    rw [Matrix.conjTranspose_apply, Matrix.map_apply, star_star, Matrix.transpose_apply]
  have hV' : (q.2.2.map star)ᴴ * q.2.2.map star = 1 := by
    rw [sm2, sm, ← Matrix.transpose_mul, hV, Matrix.transpose_one]
  have hU' : (q.1.map star)ᴴ * q.1.map star = 1 := by
    rw [sm2, sm, ← Matrix.transpose_mul, hU, Matrix.transpose_one]
  have hA' : Aᵀ = q.2.2.map star * Matrix.diagonal (fun j => (q.2.1 j : 𝕜)) * (q.1.map star)ᴴ := by
    have h1 : (q.1.map star)ᴴ = q.1ᵀ := sm2 _
    rw [h1, sm]
    conv_lhs => rw [hA]
    rw [Matrix.transpose_mul, Matrix.transpose_mul, Matrix.diagonal_transpose, Matrix.mul_assoc]
  have hc1 : (cutCols q.2.2 k).map star = cutCols (q.2.2.map star) k := by
    ext i j
    rw [Matrix.map_apply, cutCols_apply _ hkn, cutCols_apply _ hkn, Matrix.map_apply]
  have hc2 : ((cutCols (q.1.map star) k).map star)ᵀ = (cutCols q.1 k)ᵀ := by
    ext i j
    rw [Matrix.transpose_apply, Matrix.map_apply, cutCols_apply _ hkn, Matrix.transpose_apply, cutCols_apply _ hkn, Matrix.map_apply, star_star]
  rw [Matrix.transpose_mul, Matrix.diagonal_transpose, hc1, ← hc2, cut_diag hV' hA' hkn]
  refine dec_of hV' (fun i j hij => mul_self_le_mul_self (h0 j) (ha hij)) (fun j => mul_self_nonneg _) one_pos ?_ hk
  rw [aug_none, RCLike.ofReal_one, one_smul]
  have hd : (Matrix.diagonal fun j => (q.2.1 j : 𝕜))ᴴ = Matrix.diagonal fun j => (q.2.1 j : 𝕜) := by
    rw [Matrix.diagonal_conjTranspose]
    congr 1
    ext j
    rw [Pi.star_apply, RCLike.star_def, RCLike.conj_ofReal]
  rw [hA', Matrix.conjTranspose_mul, Matrix.conjTranspose_mul, hd, Matrix.conjTranspose_conjTranspose]
  simp only [Matrix.mul_assoc]
  rw [← Matrix.mul_assoc ((q.1.map star)ᴴ), hU', Matrix.one_mul, ← Matrix.mul_assoc (Matrix.diagonal _) (Matrix.diagonal _), Matrix.diagonal_mul_diagonal]
  simp only [RCLike.ofReal_mul]

end Verif.SvdBond
