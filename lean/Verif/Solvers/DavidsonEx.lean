import Verif.Solvers.DavidsonC69

/-!
# Davidson: cases where the documented claim fails, and examples
-/

noncomputable section

namespace Verif.Solvers

open scoped BigOperators
open Finset (range)

variable {𝕜 E : Type*} [RCLike 𝕜] [NormedAddCommGroup E] [InnerProductSpace 𝕜 E]

/-- The spectral theorem in the form of `IsEig`. -/
theorem exists_isEig (n : Nat) (M : Nat → Nat → 𝕜) (h : ∀ i < n, ∀ j < n, M j i = (starRingEnd 𝕜) (M i j)) : ∃ e : Eig 𝕜, IsEig n M e := by
  let M' : Matrix (Fin n) (Fin n) 𝕜 := fun i j => M i j
  have hH : M'.IsHermitian := by
    ext i j
    rw [Matrix.conjTranspose_apply]
    show star (M j i) = M i j
    rw [h j j.2 i i.2]; rfl
  have hT := Matrix.isSymmetric_toEuclideanLin_iff.mpr hH
  have hn : Module.finrank 𝕜 (EuclideanSpace 𝕜 (Fin n)) = n := by simp
  let b := hT.eigenvectorBasis hn
  have hU : ∀ s t : Fin n, ∑ k : Fin n, (starRingEnd 𝕜) (b s k) * b t k = if s = t then 1 else 0 := by
    intro s t
    have := orthonormal_iff_ite.1 b.orthonormal s t
    rw [← this, PiLp.inner_apply]
    exact Finset.sum_congr rfl fun k _ => by rw [RCLike.inner_apply, mul_comm]
  let U : Matrix (Fin n) (Fin n) 𝕜 := fun k t => b t k
  have h1 : U.conjTranspose * U = 1 := by
    ext s t
    rw [Matrix.mul_apply, Matrix.one_apply]
    exact hU s t
  have h2 : U * U.conjTranspose = 1 := mul_eq_one_comm.1 h1
  refine ⟨⟨fun t => if ht : t < n then hT.eigenvalues hn ⟨t, ht⟩ else 0, fun k t => if ht : t < n then if hk : k < n then b ⟨t, ht⟩ ⟨k, hk⟩ else 0 else 0⟩, ?_⟩
  constructor
  · intro i hi t ht
    have := hT.apply_eigenvectorBasis hn ⟨t, ht⟩
    have h3 := congrArg (fun x => x.ofLp ⟨i, hi⟩) this
    simp only [ht, hi, dif_pos]
    rw [Finset.sum_range]
    simp only [Fin.is_lt, dif_pos]
    rw [PiLp.smul_apply] at h3
    rw [smul_eq_mul] at h3
    rw [← h3, Matrix.toLpLin_apply]
    rfl
  · intro s hs t ht
    rw [Finset.sum_range]
    simp only [Fin.is_lt, dif_pos, hs, ht]
    have := hU ⟨s, hs⟩ ⟨t, ht⟩
    simp only [Fin.mk.injEq] at this
    exact this
  · intro i hi j hj
    rw [Finset.sum_range]
    simp only [Fin.is_lt, dif_pos, hi, hj]
    have := congrFun (congrFun h2 ⟨i, hi⟩) ⟨j, hj⟩
    rw [Matrix.mul_apply, Matrix.one_apply] at this
    simp only [Fin.mk.injEq] at this
    exact this
  · intro s t hst ht
    have hs : s < n := by omega
    simp only [hs, ht, dif_pos]
    exact hT.eigenvalues_antitone hn (show (⟨s, hs⟩ : Fin n) ≤ ⟨t, ht⟩ from hst)

/-- There is a correct `diagHermitian`, so `DiagOK` can be met. -/
theorem exists_diag : ∃ diag : Nat → (Nat → Nat → 𝕜) → Eig 𝕜, DiagOK diag := by
  classical
  refine ⟨fun n M => if h : ∀ i < n, ∀ j < n, M j i = (starRingEnd 𝕜) (M i j) then (exists_isEig n M h).choose else ⟨fun _ => 0, fun _ _ => 0⟩, ?_⟩
  intro n M _ h
  dsimp only
  rw [dif_pos h]
  exact (exists_isEig n M h).choose_spec

/-- An initial vector which is an eigenvector is returned at once, whatever its eigenvalue. -/
theorem davidson_eigenvector {A : E →ₗ[𝕜] E} (hA : A.IsSymmetric) {diag : Nat → (Nat → Nat → 𝕜) → Eig 𝕜} (hd : DiagOK diag) (rnd : Nat → E)
    {fuel : Nat} (hf : 1 ≤ fuel) (o : DOpts) (maxsize : Nat) (junk : Nat → Nat → 𝕜) {x : E} (hx : x ≠ 0) {μ : ℝ} (hAx : A x = (μ : 𝕜) • x) :
    davidson A diag rnd fuel o maxsize maxsize junk [x] = some (.ok ([some μ], [unit 𝕜 x])) := by
  obtain ⟨f, rfl⟩ : ∃ f, fuel = f + 1 := ⟨fuel - 1, by omega⟩
  have hi : initAll (𝕜 := 𝕜) rnd (f + 1) [x] 0 = some ([unit 𝕜 x], 0) := by
    rw [initAll, initVec, if_neg (by simpa using hx)]; rfl
  have hAu : A (unit 𝕜 x) = (μ : 𝕜) • unit 𝕜 x := by unfold unit; rw [map_smul, hAx, smul_comm]
  have hE : RCLike.re (inner 𝕜 (unit 𝕜 x) (A (unit 𝕜 x))) = μ := by
    rw [hAu, inner_smul_right, inner_self_eq_norm_sq_to_K, norm_unit hx]
    simp
  unfold davidson
  rw [if_neg (by simp), hi, Option.bind_some]
  simp only [ne_eq, not_true_eq_false, if_false, List.length_cons, List.length_nil]
  congr 1
  have hinv := start_inv (A := A) (P := True) hx [] junk 0
  obtain ⟨s', l, y, e, eV, eAV, et, enr, ell, eM, ee, elp, ex, epo, hg, hb, h0, -, -⟩ := ritz_ok hA hd hinv
  obtain ⟨rfl, rfl⟩ := h0 rfl
  rw [hE] at *
  simp only [List.length_nil] at e
  rw [davLoop, e, Res.bind_ok]
  have hq : A (unit 𝕜 x) - (μ : 𝕜) • unit 𝕜 x = 0 := by rw [hAu, sub_self]
  simp only [hq, norm_zero, et]
  rw [if_pos ⟨Or.inl (by positivity), by simp⟩]
  simp only [Res.bind_ok, et]
  simp only [Nat.zero_add, Nat.sub_self, List.range_zero, List.map_nil, remaining, Res.bind_ok]
  have h1 : s'.eigs = [some μ] := by rw [ee]; rfl
  have h2 : s'.phi = [unit 𝕜 x] := by
    obtain ⟨a, ha⟩ := List.length_eq_one_iff.1 elp
    rw [ha] at ex ⊢; simpa using ex
  rw [h1, h2]

/-- An orthonormal list is not longer than the dimension. -/
theorem ortho_le [FiniteDimensional 𝕜 E] {V : List E} (h : Ortho 𝕜 V) : V.length ≤ Module.finrank 𝕜 E := by
  have ho : Orthonormal 𝕜 (fun i : Fin V.length => V.getD i 0) := by
    rw [orthonormal_iff_ite]
    intro i j
    rw [h i i.2 j j.2]
    simp [Fin.ext_iff]
  have := ho.linearIndependent.fintype_card_le_finrank
  simpa using this

/-- When the vectors reached fill the space, nothing is left by Gram-Schmidt. -/
theorem gsPass_full [FiniteDimensional 𝕜 E] {V : List E} (h : Ortho 𝕜 V) (hV : V.length = Module.finrank 𝕜 E) (q : E) : gsPass 𝕜 V q = 0 := by
  by_contra h0
  have := ortho_le (ortho_append h (norm_scaled (𝕜 := 𝕜) (norm_ne_zero_iff.2 h0)) fun i hi => by rw [inner_smul_right, gsPass_orth h q hi, mul_zero])
  simp at this
  omega

/-- The orthogonalization gives up when the vectors reached fill the space. -/
theorem orthog_full [FiniteDimensional 𝕜 E] {rnd : Nat → E} (hr : ∀ n, rnd n ≠ 0) (maxsize : Nat) {V : List E} (h : Ortho 𝕜 V) (hV : V.length = Module.finrank 𝕜 E) :
    ∀ (fuel tot : Nat) (q : E) (nr : Nat), ∃ nr', orthog (𝕜 := 𝕜) rnd maxsize V fuel tot q nr = .ok (none, nr') := by
  intro fuel
  induction fuel with
  | zero => intro tot q nr; exact ⟨_, rfl⟩
  | succ fuel ih =>
    intro tot q nr
    rw [orthog]
    rw [if_pos (by rw [gsPass_full h hV]; simp)]
    split
    · exact ⟨_, rfl⟩
    · split
      · exact ⟨_, rfl⟩
      · rw [if_neg (by simpa using hr nr)]
        exact ih _ _ _

/-- The residual of a Ritz pair is orthogonal to the vectors reached, so it vanishes when they fill the space. -/
theorem residual_full [FiniteDimensional 𝕜 E] {V : List E} (h : Ortho 𝕜 V) (hV : V.length = Module.finrank 𝕜 E) {q : E} (hq : ∀ i < V.length, inner 𝕜 (V.getD i 0) q = 0) : q = 0 := by
  have := gsPass_full h hV q
  rw [gsPass_eq, Finset.sum_eq_zero] at this
  · simpa using this
  · intro k hk; rw [hq k (Finset.mem_range.1 hk), zero_smul]

/-- **C69** (counterexample). When two states are asked for in a space of dimension two whose index dimensions multiply to three or more (a sector of a tensor with quantum
numbers), `davidson` returns a value which is not a number for the second state, although it has diagonalized the matrix on the whole space. This holds for every Hermitian matrix
and all initial vectors which are not eigenvectors. -/
theorem C69_nan_counterexample [FiniteDimensional 𝕜 E] (h2 : Module.finrank 𝕜 E = 2) {A : E →ₗ[𝕜] E} (hA : A.IsSymmetric) {diag : Nat → (Nat → Nat → 𝕜) → Eig 𝕜} (hd : DiagOK diag)
    {rnd : Nat → E} (hr : ∀ n, rnd n ≠ 0) {fuel : Nat} (hf : 1 ≤ fuel) {o : DOpts} (ho : 2 ≤ o.maxiter) (hm : o.miniter = 1) {maxsize : Nat} (hs : 3 ≤ maxsize)
    (junk : Nat → Nat → 𝕜) {x0 x1 : E} (hx0 : x0 ≠ 0) (hx1 : x1 ≠ 0)
    (hq : 1 / 10 ^ 10 ≤ ‖A (unit 𝕜 x0) - ((RCLike.re (inner 𝕜 (unit 𝕜 x0) (A (unit 𝕜 x0))) : ℝ) : 𝕜) • unit 𝕜 x0‖) :
    ∃ (l : ℝ) (phi : List E), davidson A diag rnd fuel o maxsize maxsize junk [x0, x1] = some (.ok ([some l, none], phi)) := by
  obtain ⟨f, rfl⟩ : ∃ f, fuel = f + 1 := ⟨fuel - 1, by omega⟩
  have hi : initAll (𝕜 := 𝕜) rnd (f + 1) [x0, x1] 0 = some ([unit 𝕜 x0, unit 𝕜 x1], 0) := by
    rw [initAll, initVec, if_neg (by simpa using hx0), Option.bind_some, initAll, initVec, if_neg (by simpa using hx1)]; rfl
  obtain ⟨r, hact⟩ : ∃ r, (if maxsize = 0 then o.maxiter else min o.maxiter (maxsize - 1)) = r + 1 + 1 := by
    rw [if_neg (by omega)]
    exact ⟨min o.maxiter (maxsize - 1) - 2, by omega⟩
  unfold davidson
  rw [if_neg (by simp), hi, Option.bind_some]
  simp only [ne_eq, not_true_eq_false, if_false, hact]
  -- first iteration
  have hinv := start_inv (A := A) (P := False) hx0 [unit 𝕜 x1] junk 0
  obtain ⟨s', l, y, e, eV, eAV, et, enr, ell, eM, ee, elp, ex, epo, hg, hb, h0, hl, hor⟩ := ritz_ok hA hd hinv
  obtain ⟨rfl, rfl⟩ := h0 rfl
  simp only [List.length_cons, List.length_nil, Nat.zero_add, Nat.reduceAdd] at e ⊢
  rw [davLoop, e]
  simp only [Res.bind_ok]
  generalize hE : RCLike.re (inner 𝕜 (unit 𝕜 x0) (A (unit 𝕜 x0))) = E0 at *
  set q := A (unit 𝕜 x0) - (E0 : 𝕜) • unit 𝕜 x0 with hqd
  have hn20 : ¬‖q‖ < 1 / 10 ^ 20 := by
    have : (1 : ℝ) / 10 ^ 20 ≤ 1 / 10 ^ 10 := by norm_num
    linarith
  have hmn : ¬o.miniter ≤ 0 := by omega
  simp only [hn20, hmn, and_false, false_or, or_false, Nat.add_eq_zero_iff, Nat.one_ne_zero, false_and, if_false]
  have hV' : s'.V = [unit 𝕜 x0] := eV
  have hgs : gsPass 𝕜 s'.V q = q := by
    rw [hV', gsPass_eq, List.length_singleton, Finset.sum_range_one, hor 0 (by simp), zero_smul, sub_zero]
  have hbig : ¬‖gsPass 𝕜 s'.V q‖ < 1 / 10 ^ 10 := by rw [hgs]; exact not_lt.2 hq
  rw [orthog_big _ _ _ _ _ _ _ hbig, Res.bind_ok, hgs]
  have hne : ‖q‖ ≠ 0 := by intro h0; rw [h0] at hn20; exact hn20 (by positivity)
  have hinv2 := expand_inv hA hinv (s2 := { s' with lastLam := E0 }) (y := ((1 / ‖q‖ : ℝ) : 𝕜) • q) eV eAV eM elp (by simp [ee])
    (by rw [show ({ s' with lastLam := E0 } : DSt 𝕜 E).t = s'.t from rfl, et]; exact Nat.zero_le _)
    (by rw [show ({ s' with lastLam := E0 } : DSt 𝕜 E).t = s'.t from rfl, et]; exact Nat.succ_pos _)
    (by rw [show ({ s' with lastLam := E0 } : DSt 𝕜 E).t = s'.t from rfl, et]; intro j hj; exact absurd hj (Nat.not_lt_zero _))
    (by
      rw [show ({ s' with lastLam := E0 } : DSt 𝕜 E).t = s'.t from rfl, et]
      intro j h1 h2
      show s'.eigs[j]? = _
      change 0 < j at h1
      rw [ee, List.getElem?_set_ne (by show 0 ≠ j; omega)]
      exact List.getElem?_replicate.trans (if_pos h2))
    hl (norm_scaled hne) (fun i hi => by rw [inner_smul_right, hor i hi, mul_zero]) (fun h => h.elim) s'.nr
  -- second iteration
  obtain ⟨s3, l3, y3, e3, e3V, e3AV, e3t, e3nr, e3ll, e3M, e3e, e3lp, e3x, e3po, h3g, h3b, h30, h3l, h3or⟩ := ritz_ok hA hd hinv2
  rw [hE] at e3
  simp only [Nat.zero_add, Nat.reduceAdd] at e3 ⊢
  rw [davLoop, e3]
  simp only [Res.bind_ok]
  have hlen : (expand (⇑A) { s' with lastLam := E0 } (((1 / ‖q‖ : ℝ) : 𝕜) • q) s'.nr).V.length = Module.finrank 𝕜 E := by rw [hinv2.lenV, h2]
  have hq3 : A y3 - (l3 : 𝕜) • y3 = 0 := residual_full hinv2.on hlen h3or
  have ht3 : s3.t = 0 := by rw [e3t]; exact et
  have h20 : ‖(0 : E)‖ < 1 / 10 ^ 20 := by rw [norm_zero]; positivity
  simp only [hq3, h20, true_or, ht3]
  rw [if_neg (by simp)]
  rw [if_pos trivial]
  have hV3 := e3V
  obtain ⟨nr', eo⟩ := orthog_full (𝕜 := 𝕜) hr maxsize hinv2.on hlen 4 0 (0 : E) s3.nr
  rw [← e3V] at eo
  simp only [eo, Res.bind_ok]
  refine ⟨l3, s3.phi, ?_⟩
  congr 2
  have : s3.eigs = [some l3, none] := by
    rw [e3e]
    show (s'.eigs.set s'.t (some l3)) = _
    rw [ee, et]
    rfl
  simp only [this]
  rfl

/-- **C69** (counterexample). `davidson` does not always find the smallest eigenvalue: for the matrix with diagonal 0, 1 and the second basis vector it returns 1, with any options. -/
theorem C69_minimal_counterexample (o : DOpts) (maxsize : Nat) (rnd : Nat → EuclideanSpace ℝ (Fin 2)) (junk : Nat → Nat → ℝ) {diag : Nat → (Nat → Nat → ℝ) → Eig ℝ} (hd : DiagOK diag) :
    let A := Matrix.toEuclideanLin (Matrix.diagonal ![(0 : ℝ), 1])
    A.IsSymmetric ∧ (∃ z ≠ 0, A z = (0 : ℝ) • z) ∧
      davidson A diag rnd 2 o maxsize maxsize junk [EuclideanSpace.single 1 1] = some (.ok ([some 1], [unit ℝ (EuclideanSpace.single 1 1)])) := by
  intro A
  have hA : A.IsSymmetric := Matrix.isSymmetric_toEuclideanLin_iff.mpr (Matrix.isHermitian_diagonal _)
  have h0 : ∀ i : Fin 2, (EuclideanSpace.single i (1 : ℝ)) ≠ 0 := fun i h => by
    have := congrArg (fun x => x.ofLp i) h
    simp at this
  refine ⟨hA, ⟨EuclideanSpace.single 0 1, h0 0, ?_⟩, davidson_eigenvector hA hd rnd (by omega) o maxsize junk (h0 1) ?_⟩
  · ext i
    simp only [A, Matrix.toLpLin_apply]
    fin_cases i <;> simp [Matrix.mulVec_diagonal]
  · ext i
    simp only [A, Matrix.toLpLin_apply]
    fin_cases i <;> simp [Matrix.mulVec_diagonal]

/-- The hypotheses of `C69_ground` and the case of a strict decrease can be met: the swap matrix, started from the first basis vector. -/
example : ∃ (A : EuclideanSpace ℝ (Fin 2) →ₗ[ℝ] EuclideanSpace ℝ (Fin 2)) (x : EuclideanSpace ℝ (Fin 2)) (l : ℝ) (y : EuclideanSpace ℝ (Fin 2))
    (diag : Nat → (Nat → Nat → ℝ) → Eig ℝ), A.IsSymmetric ∧ energy ℝ A x = 0 ∧
    davidson A diag (fun _ => x) 2 ⟨2, 1 / 10 ^ 14, 1⟩ 2 2 (fun _ _ => 0) [x] = some (.ok ([some l], [y])) ∧ l < 0 := by
  obtain ⟨diag, hd⟩ := exists_diag (𝕜 := ℝ)
  have hA : (Matrix.toEuclideanLin !![(0 : ℝ), 1; 1, 0]).IsSymmetric := Matrix.isSymmetric_toEuclideanLin_iff.mpr (by
    ext i j; fin_cases i <;> fin_cases j <;> simp)
  have h0 : (EuclideanSpace.single (0 : Fin 2) (1 : ℝ)) ≠ 0 := fun h => by
    have := congrArg (fun x => x.ofLp 0) h
    simp at this
  have hAx : Matrix.toEuclideanLin !![(0 : ℝ), 1; 1, 0] (EuclideanSpace.single 0 1) = EuclideanSpace.single 1 1 := by
    ext i
    simp only [Matrix.toLpLin_apply]
    fin_cases i <;> simp [Matrix.mulVec, dotProduct]
  have hE : energy ℝ (Matrix.toEuclideanLin !![(0 : ℝ), 1; 1, 0]) (EuclideanSpace.single 0 1) = 0 := by
    unfold energy
    rw [hAx]
    simp [EuclideanSpace.inner_single_left]
  obtain ⟨l, y, e, -, -, -, -, h⟩ := C69_ground hA hd (rnd := fun _ => EuclideanSpace.single 0 1) (fun _ => h0) (fuel := 2) (le_refl _) ⟨2, 1 / 10 ^ 14, 1⟩ 2 (fun _ _ => 0) h0
  refine ⟨_, _, l, y, diag, hA, hE, e, ?_⟩
  rw [← hE]
  refine h (by decide) (by decide) (by decide) ?_
  rw [hE, hAx]
  simp
  norm_num

end Verif.Solvers
