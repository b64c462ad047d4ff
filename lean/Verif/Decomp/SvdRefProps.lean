import Verif.Decomp.SvdRef
import Mathlib.Algebra.BigOperators.Fin
import Mathlib.Tactic.Linarith
import Mathlib.Tactic.NoncommRing
import Mathlib.LinearAlgebra.Matrix.ConjTranspose

/-!
# Lemmas about the built-in SVD (C93)
-/

namespace Verif.SvdRef

open Matrix

variable {𝕜 : Type*} [RCLike 𝕜]

/-- A diagonal matrix of real numbers. -/
noncomputable def dg {k : ℕ} (D : Fin k → ℝ) : Matrix (Fin k) (Fin k) 𝕜 :=
  Matrix.diagonal fun i => (D i : 𝕜)

/-- What the LAPACK routines promise when they report no error. -/
structure Lapack.Right (L : Lapack 𝕜) : Prop where
  eig : ∀ {n : ℕ} {A U : Matrix (Fin n) (Fin n) 𝕜} {d : Fin n → ℝ}, Aᴴ = A →
    L.eig n A = some (U, d) → Uᴴ * U = 1 ∧ A = U * dg d * Uᴴ ∧ Monotone d
  qr : ∀ {m n k : ℕ} {A : Matrix (Fin m) (Fin n) 𝕜} {Q R}, k ≤ m → min m n ≤ k →
    L.qr m n k A = some (Q, R) → Qᴴ * Q = 1 ∧ A = Q * R ∧
      (∀ (i : Fin k) (j : Fin n), j.val < i.val → R i j = 0) ∧
      ∀ (i : Fin k) (j : Fin n), i.val = j.val → RCLike.im (R i j) = 0

/-- LAPACK never reports an error. -/
structure Lapack.Total (L : Lapack 𝕜) : Prop where
  eig : ∀ n A, (L.eig n A).isSome
  qr : ∀ m n k A, (L.qr m n k A).isSome

/-- A singular value decomposition of `M`. -/
structure IsSvd {m n k : ℕ} (M : Matrix (Fin m) (Fin n) 𝕜) (o : Out 𝕜 m n k) : Prop where
  u : o.Uᴴ * o.U = 1
  v : o.Vᴴ * o.V = 1
  eq : M = o.U * dg o.D * o.Vᴴ
  nonneg : ∀ i, 0 ≤ o.D i
  anti : Antitone o.D

theorem dg_mul {k : ℕ} (a b : Fin k → ℝ) :
    (dg a : Matrix (Fin k) (Fin k) 𝕜) * dg b = dg fun i => a i * b i := by
  simp [dg, Matrix.diagonal_mul_diagonal]

theorem dg_star {k : ℕ} (a : Fin k → ℝ) : (dg a : Matrix (Fin k) (Fin k) 𝕜)ᴴ = dg a := by
  rw [dg, Matrix.diagonal_conjTranspose]
  congr 1
  funext i
  simp

theorem dg_inj {k : ℕ} {a b : Fin k → ℝ} (h : (dg a : Matrix (Fin k) (Fin k) 𝕜) = dg b) :
    a = b := by
  funext i
  have := congrFun (congrFun h i) i
  simpa [dg] using this

/-! ### `diagHermitian` -/

theorem diagHermitian_ok {L : Lapack 𝕜} (hL : L.Right) {n : ℕ} {A U : Matrix (Fin n) (Fin n) 𝕜}
    {d : Fin n → ℝ} (hA : Aᴴ = A) (h : diagHermitian L A = .ok (U, d)) :
    Uᴴ * U = 1 ∧ A = U * dg d * Uᴴ ∧ Antitone d := by
  unfold diagHermitian at h
  split at h
  · cases h
  · split at h
    · cases h
    · rename_i U' d' e
      simp only [Res.ok.injEq, Prod.mk.injEq] at h
      obtain ⟨rfl, rfl⟩ := h
      have hn : (-A)ᴴ = -A := by rw [Matrix.conjTranspose_neg, hA]
      obtain ⟨h1, h2, h3⟩ := hL.eig hn e
      refine ⟨h1, ?_, ?_⟩
      · have : (dg (fun i => d' i * -1) : Matrix (Fin n) (Fin n) 𝕜) = -dg d' := by
          ext i j
          by_cases hij : i = j <;> simp [dg, Matrix.diagonal_apply, hij]
        rw [this, Matrix.mul_neg, Matrix.neg_mul, ← h2, neg_neg]
      · intro i j hij
        have := h3 hij
        simpa using this

/-! ### The sign of the diagonal -/

/-- The sign chosen for row `i`. -/
noncomputable def sgn {n k : ℕ} (R : Matrix (Fin k) (Fin n) 𝕜) (i : Fin k) : 𝕜 :=
  if h : i.val < n then if RCLike.re (R i ⟨i.val, h⟩) < 0 then -1 else 1 else 1

theorem posFold {m n k : ℕ} (Q : Matrix (Fin m) (Fin k) 𝕜) (R : Matrix (Fin k) (Fin n) 𝕜) (t : ℕ) :
    (List.range t).foldl posStep (Q, R) =
      (Matrix.of fun a b => if b.val < t then Q a b * sgn R b else Q a b,
        Matrix.of fun b c => if b.val < t then R b c * sgn R b else R b c) := by
  induction t with
  | zero => refine Prod.ext ?_ ?_ <;> (ext a b; simp)
  | succ t ih =>
    rw [List.range_succ, List.foldl_append, ih]
    simp only [List.foldl_cons, List.foldl_nil]
    unfold posStep
    by_cases h : t < k ∧ t < n
    · rw [dif_pos h]
      simp only [Matrix.of_apply, lt_irrefl, if_false]
      by_cases hr : RCLike.re (R ⟨t, h.1⟩ ⟨t, h.2⟩) < 0
      · rw [if_pos hr]
        refine Prod.ext ?_ ?_
        · ext a b
          by_cases hb : b.val = t
          · obtain ⟨b, hb'⟩ := b
            simp only at hb
            subst hb
            simp [sgn, h.2, hr]
          · have : b.val ≤ t ↔ b.val < t := by omega
            simp [hb, this]
        · ext b c
          by_cases hb : b.val = t
          · obtain ⟨b, hb'⟩ := b
            simp only at hb
            subst hb
            simp [sgn, h.2, hr]
          · have : b.val ≤ t ↔ b.val < t := by omega
            simp [hb, this]
      · rw [if_neg hr]
        refine Prod.ext ?_ ?_
        · ext a b
          by_cases hb : b.val = t
          · obtain ⟨b, hb'⟩ := b
            simp only at hb
            subst hb
            simp [sgn, h.2, hr]
          · have : b.val ≤ t ↔ b.val < t := by omega
            simp [this]
        · ext b c
          by_cases hb : b.val = t
          · obtain ⟨b, hb'⟩ := b
            simp only at hb
            subst hb
            simp [sgn, h.2, hr]
          · have : b.val ≤ t ↔ b.val < t := by omega
            simp [this]
    · rw [dif_neg h]
      refine Prod.ext ?_ ?_
      · ext a b
        by_cases hb : b.val = t
        · have hn : ¬ b.val < n := by have := b.isLt; omega
          simp [sgn, hn]
        · have : b.val ≤ t ↔ b.val < t := by omega
          simp [this]
      · ext b c
        by_cases hb : b.val = t
        · have hn : ¬ b.val < n := by have := b.isLt; omega
          simp [sgn, hn]
        · have : b.val ≤ t ↔ b.val < t := by omega
          simp [this]

theorem sgn_sq {n k : ℕ} (R : Matrix (Fin k) (Fin n) 𝕜) (i : Fin k) : sgn R i * sgn R i = 1 := by
  unfold sgn; split
  · split <;> simp
  · simp

theorem sgn_star {n k : ℕ} (R : Matrix (Fin k) (Fin n) 𝕜) (i : Fin k) :
    star (sgn R i) = sgn R i := by
  unfold sgn; split
  · split <;> simp
  · simp

theorem posLoop_eq {m n k : ℕ} (Q : Matrix (Fin m) (Fin k) 𝕜) (R : Matrix (Fin k) (Fin n) 𝕜) :
    posLoop (Q, R) = (Q * Matrix.diagonal (sgn R), Matrix.diagonal (sgn R) * R) := by
  unfold posLoop
  rw [posFold]
  refine Prod.ext ?_ ?_
  · ext a b
    dsimp only
    rw [Matrix.mul_diagonal, Matrix.of_apply]
    by_cases h : b.val < if k < n then k else n
    · rw [if_pos h]
    · rw [if_neg h]
      have hb := b.isLt
      have hn : ¬ b.val < n := by split at h <;> omega
      simp [sgn, hn]
  · ext b c
    dsimp only
    rw [Matrix.diagonal_mul, Matrix.of_apply]
    by_cases h : b.val < if k < n then k else n
    · rw [if_pos h, mul_comm]
    · rw [if_neg h]
      have hb := b.isLt
      have hn : ¬ b.val < n := by split at h <;> omega
      simp [sgn, hn]

theorem posLoop_ok {m n k : ℕ} {A : Matrix (Fin m) (Fin n) 𝕜} {Q : Matrix (Fin m) (Fin k) 𝕜}
    {R : Matrix (Fin k) (Fin n) 𝕜}
    (hQ : Qᴴ * Q = 1) (hA : A = Q * R) (ht : ∀ (i : Fin k) (j : Fin n), j.val < i.val → R i j = 0)
    (hi : ∀ (i : Fin k) (j : Fin n), i.val = j.val → RCLike.im (R i j) = 0) :
    (posLoop (Q, R)).1ᴴ * (posLoop (Q, R)).1 = 1 ∧ A = (posLoop (Q, R)).1 * (posLoop (Q, R)).2 ∧
      (∀ (i : Fin k) (j : Fin n), j.val < i.val → (posLoop (Q, R)).2 i j = 0) ∧
      (∀ (i : Fin k) (j : Fin n), i.val = j.val → RCLike.im ((posLoop (Q, R)).2 i j) = 0) ∧
      ∀ (i : Fin k) (j : Fin n), i.val = j.val → 0 ≤ RCLike.re ((posLoop (Q, R)).2 i j) := by
  rw [posLoop_eq]
  have hs : (Matrix.diagonal (sgn R))ᴴ = Matrix.diagonal (sgn R) := by
    rw [Matrix.diagonal_conjTranspose]
    congr 1
    funext i
    exact sgn_star R i
  have hss : Matrix.diagonal (sgn R) * Matrix.diagonal (sgn R) = 1 := by
    rw [Matrix.diagonal_mul_diagonal]
    simp [sgn_sq]
  refine ⟨?_, ?_, ?_, ?_, ?_⟩
  · rw [Matrix.conjTranspose_mul, hs, Matrix.mul_assoc, ← Matrix.mul_assoc Qᴴ, hQ, Matrix.one_mul, hss]
  · rw [Matrix.mul_assoc, ← Matrix.mul_assoc (Matrix.diagonal _), hss, Matrix.one_mul, hA]
  · intro i j h
    dsimp only
    rw [Matrix.diagonal_mul, ht i j h, mul_zero]
  · intro i j h
    dsimp only
    rw [Matrix.diagonal_mul]
    have e : j = ⟨i.val, h ▸ j.isLt⟩ := Fin.ext h.symm
    unfold sgn
    split
    · split <;> simp [hi i j h]
    · simp [hi i j h]
  · intro i j h
    dsimp only
    rw [Matrix.diagonal_mul]
    have hj : i.val < n := h ▸ j.isLt
    have e : j = ⟨i.val, hj⟩ := Fin.ext h.symm
    subst e
    unfold sgn
    rw [dif_pos hj]
    split
    · rename_i hr
      simp only [neg_mul, one_mul, map_neg]
      linarith
    · rename_i hr
      simpa using hr

/-! ### An upper triangular matrix with orthogonal columns -/

theorem tri_diag {n : ℕ} {R : Matrix (Fin n) (Fin n) 𝕜} {D : Fin n → ℝ}
    (tri : ∀ i j : Fin n, j.val < i.val → R i j = 0) (h : Rᴴ * R = dg D) (anti : Antitone D) :
    ∀ i j : Fin n, i ≠ j → R i j = 0 := by
  have key : ∀ (t : ℕ) (i j : Fin n), i.val = t → i.val < j.val → R i j = 0 := by
    intro t
    induction t using Nat.strong_induction_on with
    | _ t ih =>
      intro i j hi hij
      have col : ∀ k : Fin n, k ≠ i → R k i = 0 := by
        intro k hk
        rcases lt_trichotomy k.val i.val with hlt | heq | hgt
        · exact ih k.val (by omega) k i rfl hlt
        · exact absurd (Fin.ext heq) hk
        · exact tri k i hgt
      have inner : ∀ l : Fin n, (Rᴴ * R) i l = star (R i i) * R i l := by
        intro l
        rw [Matrix.mul_apply, Finset.sum_eq_single i]
        · rfl
        · intro b _ hb
          simp [Matrix.conjTranspose_apply, col b hb]
        · simp
      have h0 : star (R i i) * R i j = 0 := by
        rw [← inner, h]
        rw [dg, Matrix.diagonal_apply_ne]
        exact fun e => by rw [e] at hij; omega
      by_cases hz : R i i = 0
      · have hDi : D i = 0 := by
          have := inner i
          rw [h, hz] at this
          simpa [dg] using this
        have hDj : D j ≤ 0 := hDi ▸ anti (by exact le_of_lt hij)
        have hs : ∑ k, (‖R k j‖ ^ 2 : ℝ) = D j := by
          have := congrFun (congrFun h j) j
          rw [Matrix.mul_apply] at this
          have e : ∀ k, Rᴴ j k * R k j = ((‖R k j‖ ^ 2 : ℝ) : 𝕜) := by
            intro k
            rw [Matrix.conjTranspose_apply]
            simpa using RCLike.conj_mul (R k j)
          simp only [e, dg, Matrix.diagonal_apply_eq] at this
          exact_mod_cast this
        have hn : ∀ k, 0 ≤ (‖R k j‖ ^ 2 : ℝ) := fun k => sq_nonneg _
        have := Finset.single_le_sum (fun k _ => hn k) (Finset.mem_univ i)
        have hz' : (‖R i j‖ ^ 2 : ℝ) = 0 := le_antisymm (by linarith) (hn i)
        simpa using hz'
      · rcases mul_eq_zero.mp h0 with h1 | h1
        · exact absurd (star_eq_zero.mp h1) hz
        · exact h1
  intro i j hij
  rcases lt_trichotomy i.val j.val with hlt | heq | hgt
  · exact key _ i j rfl hlt
  · exact absurd (Fin.ext heq) hij
  · exact tri i j hgt

/-! ### One step of the built-in SVD -/

theorem rrows_thin {m n : ℕ} (h : n ≤ m) : rrows false m n = n := by
  unfold rrows
  rw [if_neg (by omega)]
  simp

theorem qr_ok {L : Lapack 𝕜} (hL : L.Right) {complete positive : Bool} {m n : ℕ}
    {A : Matrix (Fin m) (Fin n) 𝕜} {Q R} (h : qr L complete positive A = .ok (Q, R)) :
    Qᴴ * Q = 1 ∧ A = Q * R ∧
      (∀ (i : Fin (rrows complete m n)) (j : Fin n), j.val < i.val → R i j = 0) ∧
      (∀ (i : Fin (rrows complete m n)) (j : Fin n), i.val = j.val → RCLike.im (R i j) = 0) ∧
      (positive = true →
        ∀ (i : Fin (rrows complete m n)) (j : Fin n), i.val = j.val → 0 ≤ RCLike.re (R i j)) := by
  unfold qr at h
  split at h
  · cases h
  · split at h
    · cases h
    · rename_i QR e
      obtain ⟨Q0, R0⟩ := QR
      have hk : rrows complete m n ≤ m := by
        unfold rrows; split
        · exact le_rfl
        · split <;> omega
      have hk' : min m n ≤ rrows complete m n := by
        unfold rrows; split
        · exact min_le_left _ _
        · split
          · exact min_le_left _ _
          · exact min_le_right _ _
      obtain ⟨h1, h2, h3, h4⟩ := hL.qr hk hk' e
      simp only [Res.ok.injEq] at h
      cases positive
      · simp only [Bool.false_eq_true, if_false, Prod.mk.injEq] at h
        obtain ⟨rfl, rfl⟩ := h
        exact ⟨h1, h2, h3, h4, by simp⟩
      · simp only [if_true] at h
        have := posLoop_ok h1 h2 h3 h4
        rw [h] at this
        exact ⟨this.1, this.2.1, this.2.2.1, this.2.2.2.1, fun _ => this.2.2.2.2⟩

theorem base_svd {L : Lapack 𝕜} (hL : L.Right) {m n : ℕ} (hmn : m ≤ n) {M : Matrix (Fin m) (Fin n) 𝕜}
    {U : Matrix (Fin m) (Fin m) 𝕜} {d : Fin m → ℝ} (he : diagHermitian L (M * Mᴴ) = .ok (U, d))
    {Q R} (hq : qr L false true (Mᴴ * U) = .ok (Q, R)) :
    IsSvd M ⟨U, diagR R, assign (Mᴴ * U) Q⟩ := by
  have hh : (M * Mᴴ)ᴴ = M * Mᴴ := by rw [Matrix.conjTranspose_mul, Matrix.conjTranspose_conjTranspose]
  obtain ⟨hU, hrho, hd⟩ := diagHermitian_ok hL hh he
  obtain ⟨hQ, hV, ht, hi, hp⟩ := qr_ok hL hq
  have hUU : U * Uᴴ = 1 := mul_eq_one_comm.mp hU
  have hk := rrows_thin hmn
  clear hq he
  revert Q R
  generalize rrows false n m = k at hk
  subst hk
  intro Q R hQ hV ht hi hp
  have hRR : Rᴴ * R = dg d := by
    have e : (Mᴴ * U)ᴴ * (Mᴴ * U) = dg d := by
      rw [Matrix.conjTranspose_mul, Matrix.conjTranspose_conjTranspose, Matrix.mul_assoc,
        ← Matrix.mul_assoc M, hrho, Matrix.mul_assoc (U * dg d), hU, Matrix.mul_one,
        ← Matrix.mul_assoc, hU, Matrix.one_mul]
    rw [hV, Matrix.conjTranspose_mul, Matrix.mul_assoc, ← Matrix.mul_assoc Qᴴ, hQ,
      Matrix.one_mul] at e
    exact e
  have hoff := tri_diag ht hRR hd
  have hR : R = dg (diagR R) := by
    ext i j
    by_cases hij : i = j
    · subst hij
      simp only [dg, Matrix.diagonal_apply_eq, diagR, i.isLt, dif_pos]
      have := RCLike.re_add_im (R i i)
      rw [hi i i rfl] at this
      simpa using this.symm
    · rw [hoff i j hij, dg, Matrix.diagonal_apply_ne _ hij]
  have hsq : ∀ i, diagR R i * diagR R i = d i := by
    have : (dg (fun i => diagR R i * diagR R i) : Matrix (Fin k) (Fin k) 𝕜) = dg d := by
      rw [← dg_mul, ← hRR]
      conv_rhs => rw [hR, dg_star]
    exact congrFun (dg_inj this)
  have hnn : ∀ i, 0 ≤ diagR R i := by
    intro i
    simpa [diagR, i.isLt] using hp rfl i i rfl
  have hass : assign (Mᴴ * U) Q = Q := by
    ext a j
    simp [assign, j.isLt]
  rw [hass]
  refine ⟨hU, hQ, ?_, hnn, ?_⟩
  · have : Mᴴ = Q * dg (diagR R) * Uᴴ := by
      rw [← hR, ← hV, Matrix.mul_assoc, hUU, Matrix.mul_one]
    have := congrArg Matrix.conjTranspose this
    rw [Matrix.conjTranspose_conjTranspose, Matrix.conjTranspose_mul, Matrix.conjTranspose_mul,
      Matrix.conjTranspose_conjTranspose, dg_star] at this
    rw [this, Matrix.mul_assoc]
  · intro i j hij
    have := hd hij
    rw [← hsq, ← hsq] at this
    exact abs_le_of_sq_le_sq' (by nlinarith) (hnn i) |>.2

/-! ### The recursion -/

/-- The columns before `start` and the ones from `start` on. -/
def split {m s : ℕ} (h : s ≤ m) : Fin s ⊕ Fin (m - s) ≃ Fin m :=
  finSumFinEquiv.trans (finCongr (by omega))

theorem split_inl {m s : ℕ} (h : s ≤ m) (c : Fin s) : (split h (.inl c)).val = c.val := by
  simp [split]

theorem split_inr {m s : ℕ} (h : s ≤ m) (c : Fin (m - s)) : (split h (.inr c)).val = s + c.val := by
  simp [split]

/-- The identity on the first columns and `W` on the others. -/
def blk {m s : ℕ} (h : s ≤ m) (W : Matrix (Fin (m - s)) (Fin (m - s)) 𝕜) : Matrix (Fin m) (Fin m) 𝕜 :=
  (Matrix.fromBlocks 1 0 0 W).submatrix (split h).symm (split h).symm

theorem blk_star {m s : ℕ} (h : s ≤ m) (W : Matrix (Fin (m - s)) (Fin (m - s)) 𝕜) :
    (blk h W)ᴴ = blk h Wᴴ := by
  rw [blk, Matrix.conjTranspose_submatrix, Matrix.fromBlocks_conjTranspose]
  simp [blk]

theorem blk_mul {m s : ℕ} (h : s ≤ m) (W X : Matrix (Fin (m - s)) (Fin (m - s)) 𝕜) :
    blk h W * blk h X = blk h (W * X) := by
  rw [blk, blk, Matrix.submatrix_mul_equiv, Matrix.fromBlocks_multiply]
  simp [blk]

theorem blk_one {m s : ℕ} (h : s ≤ m) : blk h (1 : Matrix (Fin (m - s)) (Fin (m - s)) 𝕜) = 1 := by
  simp [blk]

theorem setCols_eq {p m s : ℕ} (h : s ≤ m) (U : Matrix (Fin p) (Fin m) 𝕜)
    (W : Matrix (Fin (m - s)) (Fin (m - s)) 𝕜) : setCols U s (cols U s * W) = U * blk h W := by
  ext a j
  rw [Matrix.mul_apply, ← (split h).sum_comp, Fintype.sum_sum_type]
  obtain ⟨x, rfl⟩ := (split h).surjective j
  cases x with
  | inl c =>
    have hc : ¬ s ≤ (split h (.inl c)).val := by rw [split_inl]; omega
    simp [setCols, hc, blk, Matrix.one_apply]
  | inr c =>
    have hc : s ≤ (split h (.inr c)).val := by rw [split_inr]; omega
    have e : ∀ l : Fin (m - s), (⟨s + l.val, by omega⟩ : Fin m) = split h (.inr l) := by
      intro l
      exact Fin.ext (split_inr h l).symm
    have e2 : (⟨(split h (.inr c)).val - s, by rw [split_inr]; omega⟩ : Fin (m - s)) = c := by
      apply Fin.ext
      simp [split_inr]
    simp [setCols, hc, blk, cols, Matrix.mul_apply, e, e2]

theorem setVals_eq {m s : ℕ} (h : s ≤ m) (D : Fin m → ℝ) (d : Fin (m - s) → ℝ) :
    (dg (setVals D s d) : Matrix (Fin m) (Fin m) 𝕜) =
      (Matrix.fromBlocks (dg fun c => D (split h (.inl c))) 0 0 (dg d)).submatrix
        (split h).symm (split h).symm := by
  ext i j
  obtain ⟨x, rfl⟩ := (split h).surjective i
  obtain ⟨y, rfl⟩ := (split h).surjective j
  cases x with
  | inl c =>
    have hc : ¬ s ≤ (split h (.inl c)).val := by rw [split_inl]; omega
    cases y with
    | inl c' => simp [dg, Matrix.diagonal_apply, setVals, hc]
    | inr c' => simp [dg, Matrix.diagonal_apply]
  | inr c =>
    have hc : s ≤ (split h (.inr c)).val := by rw [split_inr]; omega
    have e2 : (⟨(split h (.inr c)).val - s, by rw [split_inr]; omega⟩ : Fin (m - s)) = c := by
      apply Fin.ext
      simp [split_inr]
    cases y with
    | inl c' => simp [dg, Matrix.diagonal_apply]
    | inr c' => simp [dg, Matrix.diagonal_apply, setVals, hc, e2]

theorem setVals_self {m s : ℕ} (h : s ≤ m) (D : Fin m → ℝ) :
    setVals D s (fun c => D (split h (.inr c))) = D := by
  funext j
  obtain ⟨x, rfl⟩ := (split h).surjective j
  cases x with
  | inl c =>
    have hc : ¬ s ≤ (split h (.inl c)).val := by rw [split_inl]; omega
    simp [setVals, hc]
  | inr c =>
    have hc : s ≤ (split h (.inr c)).val := by rw [split_inr]; omega
    have e2 : (⟨(split h (.inr c)).val - s, by rw [split_inr]; omega⟩ : Fin (m - s)) = c := by
      apply Fin.ext
      simp [split_inr]
    simp [setVals, hc, e2]

/-- Every singular value of a diagonal matrix is on its diagonal. -/
theorem val_mem {k : ℕ} {δ : Fin k → ℝ} (hδ : ∀ i, 0 ≤ δ i) {o : Out 𝕜 k k k}
    (h : IsSvd (dg δ : Matrix (Fin k) (Fin k) 𝕜) o) (i : Fin k) : ∃ j, o.D i = δ j := by
  have e : (dg fun i => δ i * δ i) * o.U = o.U * dg fun i => o.D i * o.D i := by
    have : (dg δ : Matrix (Fin k) (Fin k) 𝕜) * (dg δ)ᴴ = o.U * (dg fun i => o.D i * o.D i) * o.Uᴴ := by
      conv_lhs => rw [h.eq]
      rw [Matrix.conjTranspose_mul, Matrix.conjTranspose_mul, Matrix.conjTranspose_conjTranspose,
        dg_star, Matrix.mul_assoc, ← Matrix.mul_assoc (o.Vᴴ), h.v, Matrix.one_mul,
        Matrix.mul_assoc, ← Matrix.mul_assoc (dg o.D), dg_mul, Matrix.mul_assoc]
    rw [dg_star, dg_mul] at this
    rw [this, Matrix.mul_assoc, h.u, Matrix.mul_one]
  by_contra hne
  push Not at hne
  have hz : ∀ j, o.U j i = 0 := by
    intro j
    have := congrFun (congrFun e j) i
    rw [dg, dg, Matrix.diagonal_mul, Matrix.mul_diagonal, mul_comm] at this
    by_contra hu
    have := mul_left_cancel₀ hu this
    have h2 : δ j * δ j = o.D i * o.D i := by exact_mod_cast this
    rcases mul_self_eq_mul_self_iff.mp h2 with h3 | h3
    · exact hne j h3.symm
    · have := hδ j
      have := h.nonneg i
      exact hne j (by linarith)
  have := congrFun (congrFun h.u i) i
  rw [Matrix.mul_apply] at this
  simp [hz] at this

theorem step_svd {m n s : ℕ} (hs : s ≤ m) {M : Matrix (Fin m) (Fin n) 𝕜} {U D V}
    (h : IsSvd M (⟨U, D, V⟩ : Out 𝕜 m n m)) {o : Out 𝕜 (m - s) (m - s) (m - s)}
    (ho : IsSvd ((cols U s)ᴴ * (M * cols V s)) o) :
    IsSvd M (⟨setCols U s (cols U s * o.U), setVals D s o.D, setCols V s (cols V s * o.V)⟩ :
      Out 𝕜 m n m) := by
  obtain ⟨hu, hv, heq, hnn, hanti⟩ := h
  simp only at hu hv heq hnn hanti
  have hcol : ∀ {p : ℕ} (X : Matrix (Fin p) (Fin m) 𝕜),
      cols X s = X.submatrix id (fun c => split hs (.inr c)) := by
    intro p X
    ext a c
    simp only [cols, Matrix.of_apply, Matrix.submatrix_apply, id]
    congr 1
  have hb : (cols U s)ᴴ * (M * cols V s) =
      (dg fun c => D (split hs (.inr c)) : Matrix (Fin (m - s)) (Fin (m - s)) 𝕜) := by
    have e : Uᴴ * (M * V) = dg D := by
      rw [heq, Matrix.mul_assoc, Matrix.mul_assoc, hv, Matrix.mul_one,
        ← Matrix.mul_assoc, hu, Matrix.one_mul]
    have e2 : (cols U s)ᴴ * (M * cols V s) =
        (Uᴴ * (M * V)).submatrix (fun c => split hs (.inr c)) (fun c => split hs (.inr c)) := by
      ext a c
      simp only [hcol, Matrix.mul_apply, Matrix.submatrix_apply, Matrix.conjTranspose_apply, id]
    rw [e2, e]
    ext a c
    simp [dg, Matrix.diagonal_apply]
  rw [hb] at ho
  have hval := val_mem (fun c => hnn _) ho
  refine ⟨?_, ?_, ?_, ?_, ?_⟩
  · dsimp only
    rw [setCols_eq hs, Matrix.conjTranspose_mul, Matrix.mul_assoc, ← Matrix.mul_assoc Uᴴ, hu,
      Matrix.one_mul, blk_star, blk_mul, ho.u, blk_one]
  · dsimp only
    rw [setCols_eq hs, Matrix.conjTranspose_mul, Matrix.mul_assoc, ← Matrix.mul_assoc Vᴴ, hv,
      Matrix.one_mul, blk_star, blk_mul, ho.v, blk_one]
  · dsimp only
    rw [setCols_eq hs, setCols_eq hs, Matrix.conjTranspose_mul, blk_star, heq]
    have e : (dg D : Matrix (Fin m) (Fin m) 𝕜) = blk hs o.U * dg (setVals D s o.D) * blk hs o.Vᴴ := by
      rw [setVals_eq hs, blk, blk, Matrix.submatrix_mul_equiv, Matrix.submatrix_mul_equiv,
        Matrix.fromBlocks_multiply, Matrix.fromBlocks_multiply]
      conv_lhs => rw [← setVals_self hs D, setVals_eq hs]
      simp [← ho.eq]
    rw [e]
    simp only [Matrix.mul_assoc]
  · intro i
    dsimp only
    unfold setVals
    split
    · exact ho.nonneg _
    · exact hnn _
  · intro i j hij
    dsimp only
    unfold setVals
    have hij' : i.val ≤ j.val := hij
    by_cases h1 : s ≤ i.val
    · rw [dif_pos h1, dif_pos (by omega)]
      apply ho.anti
      show i.val - s ≤ j.val - s
      omega
    · rw [dif_neg h1]
      by_cases h2 : s ≤ j.val
      · rw [dif_pos h2]
        obtain ⟨c, hc⟩ := hval ⟨j.val - s, by omega⟩
        rw [hc]
        apply hanti
        show i.val ≤ (split hs (.inr c)).val
        rw [split_inr]
        omega
      · rw [dif_neg h2]
        exact hanti hij

/-! ### Where the recursion starts -/

theorem scan_ge {N : ℕ} (D : Fin N → ℝ) (t : ℝ) (f s : ℕ) : s ≤ scan D t f s := by
  induction f generalizing s with
  | zero => simp [scan]
  | succ f ih =>
    unfold scan
    split
    · split
      · exact le_rfl
      · exact le_trans (Nat.le_succ s) (ih _)
    · exact le_rfl

theorem checkDone_start {N : ℕ} {D : Fin N → ℝ} {thresh : ℝ} (h : (checkDone D thresh).1 = false) :
    1 ≤ (checkDone D thresh).2 ∧ (checkDone D thresh).2 < N - 1 := by
  unfold checkDone at h ⊢
  split at h
  · cases h
  · rename_i h0
    rw [dif_neg h0]
    dsimp only at h ⊢
    split at h
    · cases h
    · rename_i h1
      rw [if_neg h1]
      exact ⟨scan_ge D _ _ _, Nat.lt_of_not_le h1⟩

theorem impl_svd {L : Lapack 𝕜} (hL : L.Right) (thresh : ℝ) (f : ℕ) {m n : ℕ} (hmn : m ≤ n)
    {M : Matrix (Fin m) (Fin n) 𝕜} {o : Out 𝕜 m n m} (h : impl L thresh f m n M = some (.ok o)) :
    IsSvd M o := by
  induction f generalizing m n with
  | zero => simp [impl] at h
  | succ f ih =>
    unfold impl at h
    dsimp only at h
    split at h
    · simp at h
    · simp at h
    · rename_i U d he
      split at h
      · simp at h
      · simp at h
      · rename_i Q R hq
        have hb := base_svd hL hmn he hq
        split at h
        · simp only [Option.some.injEq, Res.ok.injEq] at h
          rw [← h]
          exact hb
        · rename_i hc
          obtain ⟨h1, h2⟩ := checkDone_start (Bool.eq_false_iff.mpr hc)
          split at h
          · simp at h
          · simp at h
          · simp at h
          · rename_i o' ho
            simp only [Option.some.injEq, Res.ok.injEq] at h
            rw [← h]
            exact step_svd (by omega) hb (ih le_rfl ho)

end Verif.SvdRef
