import Verif.Decomp.Layout
import Verif.Decomp.SvdRefProps
import Verif.Tensor.ViewsC89

/-!
# C94: the matrix that is decomposed is the one the view shows
-/

namespace Verif.Layout

open Matrix
open Verif.Views (MView read write val elemM mIter MProper read_ok val_set mIter_eq)
open Verif.SvdRef (rrows dg Out IsSvd)

variable {𝕜 : Type*} [RCLike 𝕜]

/-- The matrix stored by columns in a block of memory. -/
def bm (r c : ℕ) (b : List 𝕜) : Matrix (Fin r) (Fin c) 𝕜 := Matrix.of fun i j => val b (i.val + j.val * r)

/-- The matrix a view shows. -/
def vm (mem : List 𝕜) (M : MView) : Matrix (Fin M.r.rn) (Fin M.r.cn) 𝕜 :=
  Matrix.of fun i j => val mem (elemM M i.val j.val)

/-- The numbers in a block of memory. -/
def vec (k : ℕ) (d : List ℝ) : Fin k → ℝ := fun i => d.getD i.val 0

/-- A routine for the singular value decomposition keeps its promise. -/
def SvdRight (f : ℕ → ℕ → List 𝕜 → Option (List 𝕜 × List ℝ × List 𝕜)) : Prop :=
  ∀ {m n : ℕ} {A U : List 𝕜} {D : List ℝ} {VT : List 𝕜}, A.length = m * n →
    f m n A = some (U, D, VT) → VT.length = min m n * n ∧
      (bm m (min m n) U)ᴴ * bm m (min m n) U = 1 ∧ bm (min m n) n VT * (bm (min m n) n VT)ᴴ = 1 ∧
      bm m n A = bm m (min m n) U * dg (vec _ D) * bm (min m n) n VT ∧
      (∀ i, 0 ≤ vec (min m n) D i) ∧ Antitone (vec (min m n) D)

/-- What LAPACK promises when it reports no error. -/
structure Lapack.Right (L : Lapack 𝕜) : Prop where
  syev : ∀ {n : ℕ} {A U : List 𝕜} {d : List ℝ}, A.length = n * n → (bm n n A)ᴴ = bm n n A →
    L.syev n A = some (U, d) → U.length = n * n ∧ d.length = n ∧ (bm n n U)ᴴ * bm n n U = 1 ∧
      bm n n A = bm n n U * dg (vec n d) * (bm n n U)ᴴ ∧ Monotone (vec n d)
  qrf : ∀ {m n k : ℕ} {A F Q : List 𝕜}, k ≤ m → min m n ≤ k → A.length = m * n →
    L.qrf m n k A = some (F, Q) → F.length = m * n ∧ (bm m k Q)ᴴ * bm m k Q = 1 ∧
      bm m n A = bm m k Q * Matrix.of fun (i : Fin k) (j : Fin n) =>
        if i.val ≤ j.val then val F (i.val + j.val * m) else 0
  gesdd : SvdRight L.gesdd
  gesvd : SvdRight L.gesvd

/-! ### Copying -/

theorem gather_ok {K : Type*} [Field K] {m : List K} {f : ℕ → ℕ} {n : ℕ}
    (h : ∀ i, i < n → f i < m.length) :
    gather m f n = .ok ((List.range n).map fun i => val m (f i)) := by
  classical
  induction n with
  | zero => rfl
  | succ n ih =>
    rw [gather, ih fun i hi => h i (by omega)]
    simp only [Res.bind]
    rw [read_ok (h n (by omega)), List.range_succ, List.map_append]
    rfl

theorem val_map_range {K : Type*} [Field K] (g : ℕ → K) {n a : ℕ} (h : a < n) :
    val ((List.range n).map g) a = g a := by
  simp [val, h]

theorem val_map {b : List 𝕜} (g : 𝕜 → 𝕜) (hg : g 0 = 0) (a : ℕ) : val (b.map g) a = g (val b a) := by
  unfold val
  rw [List.getElem?_map]
  cases b[a]? <;> simp [hg]

theorem idx_lt {r c i j : ℕ} (hi : i < r) (hj : j < c) : i + j * r < r * c := by
  calc i + j * r < r + j * r := by omega
    _ = (j + 1) * r := by ring
    _ ≤ c * r := Nat.mul_le_mul_right _ hj
    _ = r * c := Nat.mul_comm _ _

theorem idx_mod {r i j : ℕ} (hi : i < r) : (i + j * r) % r = i := by
  rw [Nat.add_mul_mod_self_right, Nat.mod_eq_of_lt hi]

theorem idx_div {r i j : ℕ} (hi : i < r) : (i + j * r) / r = j := by
  rw [Nat.add_mul_div_right _ _ (by omega), Nat.div_eq_of_lt hi, Nat.zero_add]

theorem idx_inj {r i j i' j' : ℕ} (hi : i < r) (hi' : i' < r) (h : i + j * r = i' + j' * r) :
    i = i' ∧ j = j' := by
  refine ⟨?_, ?_⟩
  · rw [← idx_mod (j := j) hi, h, idx_mod hi']
  · rw [← idx_div (j := j) hi, h, idx_div hi']

theorem normal_elem {M : MView} (h : M.r.isNormal = true) (i j : ℕ) :
    elemM M i j = M.off + (i + j * M.r.rn) := by
  simp only [Tensor.MatRange.isNormal, Bool.and_eq_true, beq_iff_eq] at h
  unfold elemM
  rw [h.1, h.2, Nat.mul_one]

theorem transposed_elem {M : MView} (h : M.r.isTransposed = true) (i j : ℕ) :
    elemM M i j = M.off + (j + i * M.r.cn) := by
  simp only [Tensor.MatRange.isTransposed, Bool.and_eq_true, beq_iff_eq] at h
  unfold elemM
  rw [h.1, h.2, Nat.mul_one, Nat.add_comm j]

/-- A contiguous view uses all addresses from its pointer on. -/
theorem contiguous_inside {mem : List 𝕜} {M : MView} (hM : MProper mem M)
    (h : M.r.isContiguous = true) (k : ℕ) (hk : k < M.r.rn * M.r.cn) : M.off + k < mem.length := by
  have hr : 0 < M.r.rn := Nat.pos_of_ne_zero fun h0 => by simp [h0] at hk
  have hc : 0 < M.r.cn := Nat.pos_of_ne_zero fun h0 => by simp [h0] at hk
  by_cases ht : M.r.isTransposed = true
  · have := hM.inside (k / M.r.cn) (k % M.r.cn)
      (Nat.div_lt_of_lt_mul (by rwa [Nat.mul_comm])) (Nat.mod_lt _ hc)
    rw [transposed_elem ht] at this
    have e := Nat.mod_add_div k M.r.cn
    rw [Nat.mul_comm] at e
    omega
  · have hn : M.r.isNormal = true := by
      simpa [Tensor.MatRange.isContiguous, ht] using h
    have := hM.inside (k % M.r.rn) (k / M.r.rn) (Nat.mod_lt _ hr) (Nat.div_lt_of_lt_mul hk)
    rw [normal_elem hn] at this
    have e := Nat.mod_add_div k M.r.rn
    rw [Nat.mul_comm] at e
    omega

/-! ### `diagHermitian` -/

theorem conj_unitary {p q : ℕ} (X : Matrix (Fin p) (Fin q) 𝕜) :
    (X.map star)ᴴ * X.map star = (Xᴴ * X).map star := by
  ext i j
  simp [Matrix.mul_apply]

theorem one_map_star {p : ℕ} : (1 : Matrix (Fin p) (Fin p) 𝕜).map star = 1 := by
  ext i j
  by_cases h : i = j <;> simp [Matrix.one_apply, h]

/-- **C94, `diagHermitian`.** For every view of a square Hermitian matrix — contiguous, transposed, or
with any strides — the vectors and values are those of the matrix the view shows, the largest value
first. -/
theorem C94_eig {L : Lapack 𝕜} (hL : L.Right) {mem : List 𝕜} {M : MView} (hM : MProper mem M)
    (hh : ∀ i j : ℕ, i < M.r.rn → j < M.r.cn → star (val mem (elemM M j i)) = val mem (elemM M i j))
    {U : List 𝕜} {d : List ℝ} (h : diagHermitian L mem M = .ok (U, d)) :
    M.r.rn = M.r.cn ∧ (bm M.r.rn M.r.cn U)ᴴ * bm M.r.rn M.r.cn U = 1 ∧
      vm mem M = bm M.r.rn M.r.cn U * Matrix.diagonal (fun i => (vec M.r.cn d i : 𝕜)) *
        (bm M.r.cn M.r.cn U)ᴴ ∧ Antitone (vec M.r.cn d) := by
  unfold diagHermitian at h
  dsimp only at h
  split at h
  · cases h
  · rename_i hN
    split at h
    · cases h
    · rename_i hsq
      have hsq : M.r.rn = M.r.cn := by simpa [eq_comm] using hsq
      refine ⟨hsq, ?_⟩
      -- the block given to LAPACK
      obtain ⟨g, hg, hlt⟩ : ∃ g : ℕ → ℕ,
          gather mem (if M.r.isContiguous then fun k => M.off + k else mIter M) (M.r.cn * M.r.cn) =
            .ok ((List.range (M.r.cn * M.r.cn)).map fun k => val mem (g k)) ∧
          ∀ i j, i < M.r.cn → j < M.r.cn → g (i + j * M.r.cn) =
            if M.r.isTransposed then elemM M j i else elemM M i j := by
        refine ⟨if M.r.isContiguous then fun k => M.off + k else mIter M, gather_ok ?_, ?_⟩
        · intro k hk
          split
          · rename_i hc
            exact contiguous_inside hM hc k (by rw [hsq]; exact hk)
          · rw [mIter_eq M (by omega)]
            refine hM.inside _ _ (Nat.mod_lt _ (by omega)) ?_
            apply Nat.div_lt_of_lt_mul
            rw [hsq]; exact hk
        · intro i j hi hj
          by_cases ht : M.r.isTransposed = true
          · have hc : M.r.isContiguous = true := by simp [Tensor.MatRange.isContiguous, ht]
            rw [if_pos hc, if_pos ht, transposed_elem ht]
          · rw [if_neg ht]
            split
            · rename_i hc
              have hn : M.r.isNormal = true := by
                simpa [Tensor.MatRange.isContiguous, ht] using hc
              rw [normal_elem hn, hsq]
            · rw [mIter_eq M (by omega), hsq, idx_mod hi, idx_div hi]
      rw [hg] at h
      simp only [Res.bind] at h
      split at h
      · cases h
      · rename_i U' d' e
        simp only [Res.ok.injEq, Prod.mk.injEq] at h
        obtain ⟨rfl, rfl⟩ := h
        set b := List.map (fun x => -x)
          (List.map (fun k => val mem (g k)) (List.range (M.r.cn * M.r.cn))) with hb
        have hbel : ∀ i j : Fin M.r.cn, bm M.r.cn M.r.cn b i j =
            -(if M.r.isTransposed then val mem (elemM M j i) else val mem (elemM M i j)) := by
          intro i j
          simp only [bm, Matrix.of_apply, hb]
          rw [val_map _ (by simp), val_map_range _ (idx_lt i.isLt j.isLt), hlt _ _ i.isLt j.isLt]
          split <;> rfl
        have hherm : (bm M.r.cn M.r.cn b)ᴴ = bm M.r.cn M.r.cn b := by
          ext i j
          rw [Matrix.conjTranspose_apply, hbel, hbel]
          split
          · rw [star_neg, hh _ _ (by omega) (by omega)]
          · rw [star_neg, hh _ _ (by omega) (by omega)]
        obtain ⟨-, hdl, hu, heq, hmono⟩ := hL.syev (by simp [hb]) hherm e
        have hvec : ∀ i : Fin M.r.cn, vec M.r.cn (d'.map fun x => x * (-1)) i = -vec M.r.cn d' i := by
          intro i
          simp only [vec, List.getD_eq_getElem?_getD, List.getElem?_map]
          cases d'[i.val]? <;> simp
        have hdg : (Matrix.diagonal (fun i : Fin M.r.cn =>
            ((vec M.r.cn (d'.map fun x => x * (-1)) i : ℝ) : 𝕜)) : Matrix (Fin M.r.cn) (Fin M.r.cn) 𝕜) =
            -dg (vec M.r.cn d') := by
          ext i j
          by_cases hij : i = j
          · subst hij
            simp only [Matrix.diagonal_apply_eq, Matrix.neg_apply, dg, hvec]
            simp
          · simp [dg, Matrix.diagonal_apply_ne _ hij]
        have hanti : Antitone (vec M.r.cn (d'.map fun x => x * (-1))) := by
          intro i j hij
          have := hmono hij
          rw [hvec, hvec]
          linarith
        have hconj : ∀ ht : M.r.isTransposed = true,
            bm M.r.cn M.r.cn (U'.map star) = (bm M.r.cn M.r.cn U').map star := by
          intro _
          ext i j
          simp only [bm, Matrix.of_apply, Matrix.map_apply]
          exact val_map _ (by simp) _
        -- now for square matrices
        have goal : (bm M.r.cn M.r.cn (if M.r.isTransposed then U'.map star else U'))ᴴ *
              bm M.r.cn M.r.cn (if M.r.isTransposed then U'.map star else U') = 1 ∧
            (Matrix.of fun (i : Fin M.r.cn) (j : Fin M.r.cn) => val mem (elemM M i j)) =
              bm M.r.cn M.r.cn (if M.r.isTransposed then U'.map star else U') *
              Matrix.diagonal (fun i : Fin M.r.cn =>
                ((vec M.r.cn (d'.map fun x => x * (-1)) i : ℝ) : 𝕜)) *
              (bm M.r.cn M.r.cn (if M.r.isTransposed then U'.map star else U'))ᴴ := by
          rw [hdg]
          by_cases ht : M.r.isTransposed = true
          · simp only [ht, if_true]
            rw [hconj ht, conj_unitary, hu, one_map_star]
            refine ⟨rfl, ?_⟩
            have e2 : (Matrix.of fun (i : Fin M.r.cn) (j : Fin M.r.cn) => val mem (elemM M i j)) =
                -(bm M.r.cn M.r.cn b).map star := by
              ext i j
              rw [Matrix.neg_apply, Matrix.map_apply, hbel, if_pos ht, star_neg, neg_neg,
                hh _ _ (by omega) (by omega)]
              rfl
            rw [e2, heq]
            ext i j
            simp only [Matrix.neg_apply, Matrix.map_apply, Matrix.mul_neg, Matrix.neg_mul]
            congr 1
            simp [dg, Matrix.mul_apply, Matrix.diagonal_apply]
          · simp only [ht, if_false, Bool.false_eq_true]
            refine ⟨hu, ?_⟩
            have e2 : (Matrix.of fun (i : Fin M.r.cn) (j : Fin M.r.cn) => val mem (elemM M i j)) =
                -bm M.r.cn M.r.cn b := by
              ext i j
              rw [Matrix.neg_apply, hbel, if_neg ht, neg_neg]
              rfl
            rw [e2, heq, Matrix.mul_neg, Matrix.neg_mul]
        have conclude : ∀ r : ℕ, r = M.r.cn → (bm r M.r.cn (if M.r.isTransposed then U'.map star else U'))ᴴ *
              bm r M.r.cn (if M.r.isTransposed then U'.map star else U') = 1 ∧
            (Matrix.of fun (i : Fin r) (j : Fin M.r.cn) => val mem (elemM M i j)) =
              bm r M.r.cn (if M.r.isTransposed then U'.map star else U') *
              Matrix.diagonal (fun i : Fin M.r.cn =>
                ((vec M.r.cn (d'.map fun x => x * (-1)) i : ℝ) : 𝕜)) *
              (bm M.r.cn M.r.cn (if M.r.isTransposed then U'.map star else U'))ᴴ := by
          rintro r rfl
          exact goal
        obtain ⟨c1, c2⟩ := conclude M.r.rn hsq
        exact ⟨c1, c2, hanti⟩

/-! ### QR -/

theorem write_ok {K : Type*} {m : List K} {a : ℕ} (h : a < m.length) (x : K) :
    write m a x = .ok (m.set a x) := by
  simp [write, h]

theorem copyRow_ok {m n k i : ℕ} (hi : i < k) (hk : k ≤ m) {F : List 𝕜} (hF : F.length = m * n) :
    ∀ (s j : ℕ) (R : List 𝕜), j + s ≤ n → R.length = k * n →
      ∃ R', copyRow m k i F s j R = .ok R' ∧ R'.length = k * n ∧
        ∀ i' j', i' < k → j' < n → val R' (i' + j' * k) =
          if i' = i ∧ j ≤ j' ∧ j' < j + s then val F (i + j' * m) else val R (i' + j' * k) := by
  classical
  intro s
  induction s with
  | zero =>
    intro j R _ hR
    refine ⟨R, rfl, hR, ?_⟩
    intro i' j' _ _
    rw [if_neg (by omega)]
  | succ s ih =>
    intro j R hjs hR
    unfold copyRow
    have h1 : i + j * m < F.length := by rw [hF]; exact idx_lt (by omega) (by omega)
    have h2 : i + j * k < R.length := by rw [hR]; exact idx_lt hi (by omega)
    rw [read_ok h1]
    simp only [Res.bind]
    rw [write_ok h2]
    simp only
    obtain ⟨R', e, hl, hv⟩ := ih (j + 1) (R.set (i + j * k) (val F (i + j * m))) (by omega) (by simpa using hR)
    refine ⟨R', e, hl, ?_⟩
    intro i' j' hi' hj'
    rw [hv i' j' hi' hj', val_set h2]
    by_cases hii : i' = i
    · subst hii
      by_cases hjj : j' = j
      · subst hjj
        simp
      · have hne : ¬ i' + j * k = i' + j' * k := fun e => hjj (idx_inj hi hi e).2.symm
        rw [if_neg hne]
        by_cases hlt : j + 1 ≤ j' ∧ j' < j + 1 + s
        · rw [if_pos ⟨rfl, hlt⟩, if_pos ⟨rfl, by omega, by omega⟩]
        · rw [if_neg (by tauto), if_neg (by omega)]
    · have hne : ¬ i + j * k = i' + j' * k := fun e => hii (idx_inj hi hi' e).1.symm
      rw [if_neg (by tauto), if_neg hne, if_neg (by tauto)]

theorem copyR_ok {m n k : ℕ} (hk : k ≤ m) {F : List 𝕜} (hF : F.length = m * n) :
    ∀ (s i : ℕ) (R : List 𝕜), i + s ≤ k → R.length = k * n →
      ∃ R', copyR m n k F s i R = .ok R' ∧ R'.length = k * n ∧
        ∀ i' j', i' < k → j' < n → val R' (i' + j' * k) =
          if i ≤ i' ∧ i' < i + s ∧ i' ≤ j' then val F (i' + j' * m) else val R (i' + j' * k) := by
  intro s
  induction s with
  | zero =>
    intro i R _ hR
    refine ⟨R, rfl, hR, ?_⟩
    intro i' j' _ _
    rw [if_neg (by omega)]
  | succ s ih =>
    intro i R his hR
    unfold copyR
    by_cases hin : i ≤ n
    · obtain ⟨R1, e1, hl1, hv1⟩ := copyRow_ok (i := i) (by omega) hk hF (n - i) i R (by omega) hR
      rw [e1]
      simp only [Res.bind]
      obtain ⟨R', e, hl, hv⟩ := ih (i + 1) R1 (by omega) hl1
      refine ⟨R', e, hl, ?_⟩
      intro i' j' hi' hj'
      rw [hv i' j' hi' hj', hv1 i' j' hi' hj']
      by_cases hii : i' = i
      · subst hii
        rw [if_neg (by omega)]
        by_cases hij : i' ≤ j'
        · rw [if_pos (by omega), if_pos (by omega)]
        · rw [if_neg (by omega), if_neg (by omega)]
      · by_cases h1 : i + 1 ≤ i' ∧ i' < i + 1 + s ∧ i' ≤ j'
        · rw [if_pos h1, if_pos (by omega)]
        · rw [if_neg h1, if_neg (by omega), if_neg (by omega)]
    · have h0 : n - i = 0 := by omega
      rw [h0]
      simp only [copyRow, Res.bind]
      obtain ⟨R', e, hl, hv⟩ := ih (i + 1) R (by omega) hR
      refine ⟨R', e, hl, ?_⟩
      intro i' j' hi' hj'
      rw [hv i' j' hi' hj']
      by_cases h1 : i + 1 ≤ i' ∧ i' < i + 1 + s ∧ i' ≤ j'
      · rw [if_pos h1, if_pos (by omega)]
      · rw [if_neg h1, if_neg (by omega)]

theorem resize_length {K : Type*} [Zero K] (b : List K) (n : ℕ) : (resize b n).length = n := by
  simp [resize]
  omega

/-- **C94, `QR`.** For every view of a matrix, and if `R` is an empty matrix before the call: the
matrix the view shows is `Q R`, the columns of `Q` are orthonormal and `R` is upper triangular.
Without the assumption on `R` this is false (`C94_qr_counterexample`). -/
theorem C94_qr_partial {L : Lapack 𝕜} (hL : L.Right) {complete : Bool} {mem : List 𝕜} {A : MView}
    (hA : MProper mem A) {Q R : List 𝕜} (h : qr L complete mem A [] = .ok (Q, R)) :
    (bm A.r.rn (rrows complete A.r.rn A.r.cn) Q)ᴴ * bm A.r.rn (rrows complete A.r.rn A.r.cn) Q = 1 ∧
      vm mem A = bm A.r.rn (rrows complete A.r.rn A.r.cn) Q *
        bm (rrows complete A.r.rn A.r.cn) A.r.cn R ∧
      ∀ (i : Fin (rrows complete A.r.rn A.r.cn)) (j : Fin A.r.cn), j.val < i.val →
        bm (rrows complete A.r.rn A.r.cn) A.r.cn R i j = 0 := by
  unfold qr at h
  dsimp only at h
  split at h
  · cases h
  · rename_i hmn
    have hin : ∀ t, t < A.r.rn * A.r.cn →
        A.off + (t % A.r.rn * A.r.rs + t / A.r.rn * A.r.cs) < mem.length := by
      intro t ht
      exact hA.inside _ _ (Nat.mod_lt _ (by omega)) (Nat.div_lt_of_lt_mul ht)
    rw [gather_ok hin] at h
    simp only [Res.bind] at h
    split at h
    · cases h
    · rename_i F Q' e
      have hk : rrows complete A.r.rn A.r.cn ≤ A.r.rn := by
        unfold rrows; split
        · exact le_rfl
        · split <;> omega
      have hk' : min A.r.rn A.r.cn ≤ rrows complete A.r.rn A.r.cn := by
        unfold rrows; split
        · exact min_le_left _ _
        · split
          · exact min_le_left _ _
          · exact min_le_right _ _
      obtain ⟨hF, hQ, heq⟩ := hL.qrf hk hk' (by simp) e
      obtain ⟨R', e2, hl, hv⟩ := copyR_ok (n := A.r.cn) hk hF (rrows complete A.r.rn A.r.cn) 0
        (resize [] (rrows complete A.r.rn A.r.cn * A.r.cn)) (by omega) (resize_length _ _)
      rw [e2] at h
      simp only [Res.map, Res.ok.injEq, Prod.mk.injEq] at h
      obtain ⟨rfl, rfl⟩ := h
      have hz : ∀ a, val (resize ([] : List 𝕜) (rrows complete A.r.rn A.r.cn * A.r.cn)) a = 0 := by
        intro a
        simp only [val, resize, List.take_nil, List.nil_append, List.length_nil, Nat.sub_zero,
          List.getElem?_replicate]
        split <;> rfl
      have hR : bm (rrows complete A.r.rn A.r.cn) A.r.cn R' =
          Matrix.of fun (i : Fin (rrows complete A.r.rn A.r.cn)) (j : Fin A.r.cn) =>
            if i.val ≤ j.val then val F (i.val + j.val * A.r.rn) else 0 := by
        ext i j
        simp only [bm, Matrix.of_apply]
        rw [hv _ _ i.isLt j.isLt, hz]
        by_cases hij : i.val ≤ j.val
        · rw [if_pos ⟨by omega, by omega, hij⟩, if_pos hij]
        · rw [if_neg (by omega), if_neg hij]
      refine ⟨hQ, ?_, ?_⟩
      · rw [hR, ← heq]
        ext i j
        simp only [vm, bm, Matrix.of_apply]
        rw [val_map_range _ (idx_lt i.isLt j.isLt), idx_mod i.isLt, idx_div i.isLt]
        rfl
      · intro i j hij
        rw [hR, Matrix.of_apply, if_neg (by omega)]

/-! ### SVD by LAPACK -/

theorem scatter_ok {mem : List 𝕜} {mr mc p : ℕ} (hmc : 0 < mc)
    (hp : p + mr * mc ≤ mem.length) :
    ∀ (s i : ℕ) (a : List 𝕜), i + s ≤ mr * mc → a.length = mr * mc →
      ∃ a', scatter mem mr mc p s i a = .ok a' ∧ a'.length = mr * mc ∧
        ∀ r c, r < mr → c < mc → val a' (r + c * mr) =
          if i ≤ c + r * mc ∧ c + r * mc < i + s then val mem (p + (c + r * mc)) else val a (r + c * mr) := by
  classical
  intro s
  induction s with
  | zero =>
    intro i a _ ha
    refine ⟨a, rfl, ha, ?_⟩
    intro r c _ _
    rw [if_neg (by omega)]
  | succ s ih =>
    intro i a his ha
    unfold scatter
    rw [read_ok (by omega)]
    simp only [Res.bind]
    have hc : i % mc < mc := Nat.mod_lt _ hmc
    have hr : i / mc < mr := Nat.div_lt_of_lt_mul (by rw [Nat.mul_comm]; omega)
    have hlt : i % mc * mr + i / mc < a.length := by
      rw [ha, Nat.add_comm]
      exact idx_lt hr hc
    rw [write_ok hlt]
    simp only
    obtain ⟨a', e, hl, hv⟩ := ih (i + 1) (a.set (i % mc * mr + i / mc) (val mem (p + i))) (by omega)
      (by simpa using ha)
    refine ⟨a', e, hl, ?_⟩
    intro r c hr' hc'
    rw [hv r c hr' hc', val_set hlt]
    by_cases hi : c + r * mc = i
    · have h1 : i % mc = c := by rw [← hi, idx_mod hc']
      have h2 : i / mc = r := by rw [← hi, idx_div hc']
      rw [if_neg (by omega), if_pos (by rw [h1, h2, Nat.add_comm]), if_pos (by omega), hi]
    · have hne : ¬ i % mc * mr + i / mc = r + c * mr := by
        intro e
        rw [Nat.add_comm] at e
        obtain ⟨e1, e2⟩ := idx_inj hr hr' e
        apply hi
        rw [← e1, ← e2]
        have := Nat.mod_add_div i mc
        rw [Nat.mul_comm] at this
        exact this
      rw [if_neg hne]
      by_cases h1 : i + 1 ≤ c + r * mc ∧ c + r * mc < i + 1 + s
      · rw [if_pos h1, if_pos (by omega)]
      · rw [if_neg h1, if_neg (by omega)]

/-- The first copy is the matrix the view shows. -/
theorem fill_ok {mem : List 𝕜} {M : MView} (hM : MProper mem M) (hc : M.r.isContiguous = true)
    (hr0 : 0 < M.r.rn) (hc0 : 0 < M.r.cn) :
    ∃ a, fill mem M M.off = .ok (a, if M.r.isTransposed then M.off + M.r.rn * M.r.cn else M.off) ∧
      a.length = M.r.rn * M.r.cn ∧ bm M.r.rn M.r.cn a = vm mem M := by
  have hin := contiguous_inside hM hc
  have hpos : 0 < M.r.rn * M.r.cn := Nat.mul_pos hr0 hc0
  unfold fill
  dsimp only
  by_cases ht : M.r.isTransposed = true
  · rw [if_pos ht]
    have hlast := hin (M.r.rn * M.r.cn - 1) (by omega)
    obtain ⟨a, e, hl, hv⟩ := scatter_ok (mem := mem) (mr := M.r.rn) (p := M.off) hc0 (by omega) (M.r.rn * M.r.cn) 0
      (List.replicate (M.r.rn * M.r.cn) 0) (by omega) (by simp)
    rw [e]
    refine ⟨a, by simp [Res.map, ht], hl, ?_⟩
    ext i j
    simp only [bm, vm, Matrix.of_apply]
    rw [hv _ _ i.isLt j.isLt, if_pos, transposed_elem ht]
    refine ⟨by omega, ?_⟩
    rw [Nat.zero_add, Nat.mul_comm M.r.rn]
    exact idx_lt j.isLt i.isLt
  · rw [if_neg ht, gather_ok fun k hk => hin k hk]
    have hn : M.r.isNormal = true := by
      simpa [Tensor.MatRange.isContiguous, ht] using hc
    refine ⟨(List.range (M.r.rn * M.r.cn)).map fun i => val mem (M.off + i), by simp [Res.map, ht],
      by simp, ?_⟩
    ext i j
    simp only [bm, vm, Matrix.of_apply]
    rw [val_map_range _ (idx_lt i.isLt j.isLt), normal_elem hn]

/-- **C94, SVD by LAPACK.** For a contiguous view, stored by columns or transposed, with at most as
many rows as columns: what `SVDRefLAPACK` returns is a singular value decomposition of the matrix
the view shows. Excluded is the second attempt on a transposed matrix after a failure of `gesdd`
(`C94_fallback_counterexample`); without contiguity the statement is false
(`C94_strided_counterexample`). -/
theorem C94_svd_partial {L : Lapack 𝕜} (hL : L.Right) {method : String} {mem : List 𝕜} {M : MView}
    (hM : MProper mem M) (hc : M.r.isContiguous = true) (hr0 : 0 < M.r.rn) (hrc : M.r.rn ≤ M.r.cn)
    (hf : M.r.isTransposed = false ∨ method ≠ "automatic" ∨
      ∀ A, (L.gesdd M.r.rn M.r.cn A).isSome)
    {U : List 𝕜} {D : List ℝ} {V : List 𝕜} (h : svdLapack L method mem M = .ok (U, D, V)) :
    IsSvd (vm mem M) ⟨bm M.r.rn M.r.rn U, vec M.r.rn D, bm M.r.cn M.r.rn V⟩ := by
  obtain ⟨a, e, hl, hb⟩ := fill_ok hM hc hr0 (by omega)
  unfold svdLapack at h
  rw [e] at h
  simp only [Res.bind] at h
  have hmin : min M.r.rn M.r.cn = M.r.rn := by omega
  -- whichever routine ran, it was given the matrix
  have key : ∀ {r}, call L method mem M a (if M.r.isTransposed then M.off + M.r.rn * M.r.cn else M.off) =
      .ok (some r) → L.gesdd M.r.rn M.r.cn a = some r ∨ L.gesvd M.r.rn M.r.cn a = some r := by
    intro r hcall
    unfold call at hcall
    split at hcall
    · rename_i hm
      split at hcall
      · rename_i r' hr'
        left
        rw [hr']
        simpa using hcall
      · rename_i hnone
        rcases hf with h1 | h1 | h1
        · rw [if_neg (by simp [h1]), e] at hcall
          right
          simpa [Res.map] using hcall
        · exact absurd hm h1
        · have := h1 a
          rw [hnone] at this
          cases this
    · split at hcall
      · left; simpa using hcall
      · split at hcall
        · right; simpa using hcall
        · simp at hcall
  cases hcall : call L method mem M a
      (if M.r.isTransposed then M.off + M.r.rn * M.r.cn else M.off) with
  | throw => simp [hcall] at h
  | ub => simp [hcall] at h
  | ok r =>
    rw [hcall] at h
    simp only at h
    cases r with
    | none => simp at h
    | some r =>
      obtain ⟨U', D', VT⟩ := r
      have hs : ∀ k, k = min M.r.rn M.r.cn → VT.length = k * M.r.cn ∧
          (bm M.r.rn k U')ᴴ * bm M.r.rn k U' = 1 ∧ bm k M.r.cn VT * (bm k M.r.cn VT)ᴴ = 1 ∧
          bm M.r.rn M.r.cn a = bm M.r.rn k U' * dg (vec _ D') * bm k M.r.cn VT ∧
          (∀ i, 0 ≤ vec k D' i) ∧ Antitone (vec k D') := by
        rintro _ rfl
        rcases key hcall with h1 | h1
        · exact hL.gesdd hl h1
        · exact hL.gesvd hl h1
      simp only [hmin] at h
      obtain ⟨hvl, hu, hv, heq, hnn, hanti⟩ := hs M.r.rn hmin.symm
      have hg : ∀ i, i < M.r.rn * M.r.cn → i % M.r.cn * M.r.rn + i / M.r.cn < VT.length := by
        intro i hi
        rw [hvl, Nat.add_comm]
        exact idx_lt (Nat.div_lt_of_lt_mul (by rwa [Nat.mul_comm])) (Nat.mod_lt _ (by omega))
      rw [gather_ok hg] at h
      simp only [Res.map, Res.ok.injEq, Prod.mk.injEq] at h
      obtain ⟨rfl, rfl, rfl⟩ := h
      have hV : bm M.r.cn M.r.rn (((List.range (M.r.rn * M.r.cn)).map fun i =>
          val VT (i % M.r.cn * M.r.rn + i / M.r.cn)).map star) = (bm M.r.rn M.r.cn VT)ᴴ := by
        ext i j
        simp only [bm, Matrix.of_apply, Matrix.conjTranspose_apply]
        rw [val_map _ (by simp), val_map_range _ (by rw [Nat.mul_comm M.r.rn]; exact idx_lt i.isLt j.isLt),
          idx_mod i.isLt, idx_div i.isLt, Nat.add_comm]
      refine ⟨hu, ?_, ?_, hnn, hanti⟩
      · dsimp only
        rw [hV, Matrix.conjTranspose_conjTranspose]
        exact hv
      · dsimp only
        rw [hV, Matrix.conjTranspose_conjTranspose, ← hb]
        exact heq

/-! ### General matrices -/

/-- What `dgeev` promises: a positive imaginary part is followed by its conjugate, and the columns of
`R` are the real and the imaginary part of the first vector; a real value has a real vector. `v` is
the vector number `j` put together. No vector is zero. -/
structure GeevRight (geev : Geev) : Prop where
  pos : ∀ {N : ℕ} {A dr di R : List ℝ}, A.length = N * N → geev N A = some (dr, di, R) →
    ∀ j, j < N → 0 < di.getD j 0 → j + 1 < N ∧ di.getD (j + 1) 0 = -di.getD j 0 ∧
      dr.getD (j + 1) 0 = dr.getD j 0 ∧
      (∀ i, i < N → ∑ t ∈ Finset.range N, val A (i + t * N) * R.getD (t + j * N) 0 =
        dr.getD j 0 * R.getD (i + j * N) 0 - di.getD j 0 * R.getD (i + (j + 1) * N) 0) ∧
      (∀ i, i < N → ∑ t ∈ Finset.range N, val A (i + t * N) * R.getD (t + (j + 1) * N) 0 =
        dr.getD j 0 * R.getD (i + (j + 1) * N) 0 + di.getD j 0 * R.getD (i + j * N) 0)
  neg : ∀ {N : ℕ} {A dr di R : List ℝ}, A.length = N * N → geev N A = some (dr, di, R) →
    ∀ j, j < N → di.getD j 0 < 0 → 1 ≤ j ∧ 0 < di.getD (j - 1) 0
  real : ∀ {N : ℕ} {A dr di R : List ℝ}, A.length = N * N → geev N A = some (dr, di, R) →
    ∀ j, j < N → di.getD j 0 = 0 →
      ∀ i, i < N → ∑ t ∈ Finset.range N, val A (i + t * N) * R.getD (t + j * N) 0 =
        dr.getD j 0 * R.getD (i + j * N) 0
  unit : ∀ {N : ℕ} {A dr di R : List ℝ}, A.length = N * N → geev N A = some (dr, di, R) →
    ∀ j, j < N → ∃ i, i < N ∧ R.getD (i + j * N) 0 ≠ 0

/-- What `Unpack` leaves in column `j`, real part. -/
noncomputable def outR (di : ℕ → ℝ) (V : ℕ → ℕ → ℝ) (i j : ℕ) : ℝ :=
  open Classical in if di j < 0 then V i (j - 1) else V i j

/-- What `Unpack` leaves in column `j`, imaginary part. -/
noncomputable def outI (di : ℕ → ℝ) (V : ℕ → ℕ → ℝ) (i j : ℕ) : ℝ :=
  open Classical in if 0 < di j then V i (j + 1) else if di j < 0 then V i j * (-1) else 0

theorem unpack_eq {N : ℕ} {di : ℕ → ℝ} {V : ℕ → ℕ → ℝ}
    (hp : ∀ j, j < N → 0 < di j → j + 1 < N ∧ di (j + 1) = -di j)
    (hn : ∀ j, j < N → di j < 0 → 1 ≤ j ∧ 0 < di (j - 1)) :
    ∀ (f n : ℕ) (s : (ℕ → ℕ → ℝ) × (ℕ → ℕ → ℝ)), N ≤ n + f → (n = 0 ∨ di (n - 1) ≤ 0) →
      ∀ i j, j < N →
        (unpack N di V f n s).1 i j = (if n ≤ j then outR di V i j else s.1 i j) ∧
        (unpack N di V f n s).2 i j = (if n ≤ j then outI di V i j else s.2 i j) := by
  intro f
  induction f with
  | zero =>
    intro n s hf _ i j hj
    rw [if_neg (by omega), if_neg (by omega)]
    exact ⟨rfl, rfl⟩
  | succ f ih =>
    intro n s hf hs i j hj
    unfold unpack
    by_cases hnN : n < N
    · rw [if_pos hnN]
      by_cases hd : di n > 0
      · rw [if_pos hd]
        obtain ⟨h1, h2⟩ := hp n hnN hd
        obtain ⟨e1, e2⟩ := ih (n + 2) (fun i j => if j = n ∨ j = n + 1 then V i n else s.1 i j,
            fun i j => if j = n then V i (n + 1) else if j = n + 1 then V i (n + 1) * (-1)
              else s.2 i j) (by omega)
          (Or.inr (by rw [show n + 2 - 1 = n + 1 by omega, h2]; linarith)) i j hj
        rw [e1, e2]
        by_cases hj2 : n + 2 ≤ j
        · rw [if_pos hj2, if_pos hj2, if_pos (by omega), if_pos (by omega)]
          exact ⟨rfl, rfl⟩
        · rw [if_neg hj2, if_neg hj2]
          dsimp only
          rcases Nat.lt_trichotomy j n with h | h | h
          · rw [if_neg (by omega), if_neg (by omega), if_neg (by omega), if_neg (by omega), if_neg (by omega)]
            exact ⟨rfl, rfl⟩
          · subst h
            simp only [true_or, if_true, le_refl, outR, outI]
            rw [if_neg (by linarith), if_pos hd]
            exact ⟨rfl, rfl⟩
          · have : j = n + 1 := by omega
            subst this
            have hneg : di (n + 1) < 0 := by rw [h2]; linarith
            simp only [or_true, if_true, outR, outI, if_pos hneg]
            rw [if_pos (by omega), if_neg (by omega), if_pos (by omega), if_neg (by linarith)]
            exact ⟨rfl, rfl⟩
      · rw [if_neg hd]
        have h0 : di n = 0 := by
          rcases lt_trichotomy (di n) 0 with h | h | h
          · obtain ⟨h1, h2⟩ := hn n hnN h
            rcases hs with hs | hs
            · omega
            · linarith
          · exact h
          · exact absurd h hd
        obtain ⟨e1, e2⟩ := ih (n + 1) (fun i j => if j = n then V i n else s.1 i j,
            fun i j => if j = n then 0 else s.2 i j) (by omega)
          (Or.inr (by rw [Nat.add_sub_cancel, h0])) i j hj
        rw [e1, e2]
        by_cases hj2 : n + 1 ≤ j
        · rw [if_pos hj2, if_pos hj2, if_pos (by omega), if_pos (by omega)]
          exact ⟨rfl, rfl⟩
        · rw [if_neg hj2, if_neg hj2]
          dsimp only
          by_cases h : j = n
          · subst h
            simp [outR, outI, h0]
          · rw [if_neg h, if_neg h, if_neg (by omega), if_neg (by omega)]
            exact ⟨rfl, rfl⟩
    · rw [if_neg hnN, if_neg (by omega), if_neg (by omega)]
      exact ⟨rfl, rfl⟩

/-- The vector number `j` with real part `v.1` and imaginary part `v.2` is an eigenvector of the real
matrix `a` with value `x + iy`. -/
def IsEigen (N : ℕ) (a : ℕ → ℕ → ℝ) (v : (ℕ → ℕ → ℝ) × (ℕ → ℕ → ℝ)) (j : ℕ) (x y : ℝ) : Prop :=
  (∀ i, i < N → ∑ t ∈ Finset.range N, a i t * v.1 t j = x * v.1 i j - y * v.2 i j) ∧
    (∀ i, i < N → ∑ t ∈ Finset.range N, a i t * v.2 t j = x * v.2 i j + y * v.1 i j) ∧
    ∃ i, i < N ∧ (v.1 i j ≠ 0 ∨ v.2 i j ≠ 0)

/-- **C94, general matrices.** For a matrix stored by columns, `eigen` returns eigenvectors of the
matrix the view shows, complex ones in conjugate pairs. For a transposed matrix this is false
(`C94_general_counterexample`), and `eigDecomp` never returns (`C94_left_counterexample`). -/
theorem C94_general_partial {geev : Geev} (hg : GeevRight geev) {mem : List ℝ} {M : MView}
    (hM : MProper mem M) (hn : M.r.isNormal = true) (ht : M.r.isTransposed = false)
    {dr di : List ℝ} {v} (h : diagGeneral geev false mem M = .ok ((dr, di), v)) :
    ∀ j, j < M.r.cn →
      IsEigen M.r.cn (fun i t => val mem (elemM M i t)) v j (dr.getD j 0) (di.getD j 0) := by
  unfold diagGeneral at h
  dsimp only at h
  split at h
  · cases h
  · split at h
    · cases h
    · rename_i hN hsq
      have hsq : M.r.rn = M.r.cn := by simpa [eq_comm] using hsq
      have hc : M.r.isContiguous = true := by simp [Tensor.MatRange.isContiguous, hn]
      rw [gather_ok fun k hk => contiguous_inside hM hc k (by rw [hsq]; exact hk)] at h
      simp only [Res.bind] at h
      split at h
      · cases h
      · rename_i dr' di' R e
        simp only [Bool.false_eq_true, if_false, Res.ok.injEq, Prod.mk.injEq, ht] at h
        obtain ⟨⟨rfl, rfl⟩, rfl⟩ := h
        set A := (List.range (M.r.cn * M.r.cn)).map fun k => val mem (M.off + k) with hA
        have hl : A.length = M.r.cn * M.r.cn := by simp [hA]
        have hel : ∀ i t, i < M.r.cn → t < M.r.cn → val A (i + t * M.r.cn) = val mem (elemM M i t) := by
          intro i t hi ht
          rw [hA, val_map_range _ (idx_lt hi ht), normal_elem hn, hsq]
        intro j hj
        have hu := unpack_eq (N := M.r.cn) (V := fun i j => R.getD (i + j * M.r.cn) 0)
          (di := fun n => di'.getD n 0)
          (fun j hj hp => let q := hg.pos hl e j hj hp; ⟨q.1, q.2.1⟩) (fun j hj hp => hg.neg hl e j hj hp)
          M.r.cn 0 (fun _ _ => 0, fun _ _ => 0) (by omega) (Or.inl rfl)
        have h1 : ∀ i, (unpack M.r.cn (fun n => di'.getD n 0) (fun i j => R.getD (i + j * M.r.cn) 0)
            M.r.cn 0 (fun _ _ => 0, fun _ _ => 0)).1 i j =
            outR (fun n => di'.getD n 0) (fun i j => R.getD (i + j * M.r.cn) 0) i j := by
          intro i
          simpa using (hu i j hj).1
        have h2 : ∀ i, (unpack M.r.cn (fun n => di'.getD n 0) (fun i j => R.getD (i + j * M.r.cn) 0)
            M.r.cn 0 (fun _ _ => 0, fun _ _ => 0)).2 i j =
            outI (fun n => di'.getD n 0) (fun i j => R.getD (i + j * M.r.cn) 0) i j := by
          intro i
          simpa using (hu i j hj).2
        unfold IsEigen
        simp only [h1, h2]
        have hsum : ∀ i, i < M.r.cn → ∀ w : ℕ → ℝ,
            ∑ t ∈ Finset.range M.r.cn, val mem (elemM M i t) * w t =
              ∑ t ∈ Finset.range M.r.cn, val A (i + t * M.r.cn) * w t := by
          intro i hi w
          refine Finset.sum_congr rfl fun t ht => ?_
          rw [hel i t hi (Finset.mem_range.mp ht)]
        rcases lt_trichotomy (di'.getD j 0) 0 with hd | hd | hd
        · obtain ⟨hj1, hpos⟩ := hg.neg hl e j hj hd
          obtain ⟨q1, q2, q3, q4, q5⟩ := hg.pos hl e (j - 1) (by omega) hpos
          have hjj : j - 1 + 1 = j := by omega
          rw [hjj] at q2 q3 q4 q5
          simp only [outR, outI, if_pos hd, if_neg (not_lt.mpr hd.le)]
          refine ⟨?_, ?_, ?_⟩
          · intro i hi
            rw [hsum i hi, q4 i hi, q2, q3]
            ring
          · intro i hi
            rw [hsum i hi]
            have := q5 i hi
            rw [q2, q3]
            simp only [mul_neg, mul_one, Finset.sum_neg_distrib]
            rw [this]
            ring
          · obtain ⟨i, hi, hne⟩ := hg.unit hl e (j - 1) (by omega)
            exact ⟨i, hi, Or.inl hne⟩
        · simp only [outR, outI, hd, lt_irrefl, if_false]
          refine ⟨?_, ?_, ?_⟩
          · intro i hi
            rw [hsum i hi, hg.real hl e j hj hd i hi]
            ring
          · intro i hi
            simp
          · obtain ⟨i, hi, hne⟩ := hg.unit hl e j hj
            exact ⟨i, hi, Or.inl hne⟩
        · obtain ⟨q1, q2, q3, q4, q5⟩ := hg.pos hl e j hj hd
          simp only [outR, outI, if_pos hd, if_neg (not_lt.mpr hd.le)]
          refine ⟨?_, ?_, ?_⟩
          · intro i hi
            rw [hsum i hi, q4 i hi]
          · intro i hi
            rw [hsum i hi, q5 i hi]
          · obtain ⟨i, hi, hne⟩ := hg.unit hl e j hj
            exact ⟨i, hi, Or.inl hne⟩

end Verif.Layout
