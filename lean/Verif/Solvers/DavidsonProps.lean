import Verif.Solvers.Davidson

/-!
# Properties of the Davidson eigensolver
-/

noncomputable section

namespace Verif.Solvers

open scoped BigOperators
open Finset (range)

variable {𝕜 E : Type*} [RCLike 𝕜] [NormedAddCommGroup E] [InnerProductSpace 𝕜 E]

/-- What `diagHermitian` is documented to return for a matrix of size `n` (algs.h:25-43). -/
structure IsEig (n : Nat) (M : Nat → Nat → 𝕜) (e : Eig 𝕜) : Prop where
  vec : ∀ i < n, ∀ t < n, ∑ k ∈ range n, M i k * e.U k t = (e.d t : 𝕜) * e.U i t
  uu : ∀ s < n, ∀ t < n, ∑ k ∈ range n, (starRingEnd 𝕜) (e.U k s) * e.U k t = if s = t then 1 else 0
  uu' : ∀ i < n, ∀ j < n, ∑ t ∈ range n, e.U i t * (starRingEnd 𝕜) (e.U j t) = if i = j then 1 else 0
  desc : ∀ s t, s ≤ t → t < n → e.d t ≤ e.d s

/-- `diagHermitian` is right for every Hermitian matrix. -/
def DiagOK (diag : Nat → (Nat → Nat → 𝕜) → Eig 𝕜) : Prop :=
  ∀ n M, 0 < n → (∀ i < n, ∀ j < n, M j i = (starRingEnd 𝕜) (M i j)) → IsEig n M (diag n M)

/-- A normalized vector with `⟨x,Ax⟩ = l`. -/
structure Good (A : E →ₗ[𝕜] E) (l : ℝ) (x : E) : Prop where
  norm : ‖x‖ = 1
  val : inner 𝕜 x (A x) = (l : 𝕜)

/-- The linear combination of the first `n` vectors. -/
def lin (c : Nat → 𝕜) (X : List E) (n : Nat) : E := ∑ k ∈ range n, c k • X.getD k 0

theorem comb_ok (c : Nat → 𝕜) (X : List E) {n : Nat} (h0 : 0 < n) (h : n ≤ X.length) : comb c X n = .ok (lin c X n) := by
  cases X with
  | nil => simp at h; omega
  | cons x X =>
    have key : ∀ m, m + 1 ≤ (x :: X).length → Res.foldM (fun s k => match (x :: X)[k]? with
        | none => .ub
        | some y => .ok (s + c k • y)) (c 0 • x) ((List.range m).map (· + 1)) = .ok (lin c (x :: X) (m + 1)) := by
      intro m
      induction m with
      | zero => intro _; simp [Res.foldM, lin]
      | succ m ih =>
        intro hm
        rw [List.range_succ, List.map_append, Res.foldM_append, ih (by omega)]
        simp only [Res.bind_ok, List.map_cons, List.map_nil]
        rw [Res.foldM_cons]
        have : (x :: X)[m + 1]? = some ((x :: X).getD (m + 1) 0) := by
          rw [List.getD_eq_getElem?_getD, List.getElem?_eq_getElem (by omega)]; rfl
        simp only [this, Res.bind_ok, Res.foldM]
        rw [lin, lin, Finset.sum_range_succ _ (m + 1)]
    have := key (n - 1) (by omega)
    rw [show n - 1 + 1 = n by omega] at this
    exact this

/-- `V` is orthonormal. -/
def Ortho (𝕜 : Type*) {E : Type*} [RCLike 𝕜] [NormedAddCommGroup E] [InnerProductSpace 𝕜 E] (V : List E) : Prop :=
  ∀ i < V.length, ∀ j < V.length, inner 𝕜 (V.getD i 0) (V.getD j 0) = if i = j then (1 : 𝕜) else 0

theorem inner_lin {V : List E} (hV : Ortho 𝕜 V) {n : Nat} (hn : n ≤ V.length) (c c' : Nat → 𝕜) :
    inner 𝕜 (lin c V n) (lin c' V n) = ∑ k ∈ range n, (starRingEnd 𝕜) (c k) * c' k := by
  unfold lin
  rw [sum_inner]
  refine Finset.sum_congr rfl fun k hk => ?_
  have hk := Finset.mem_range.1 hk
  rw [inner_sum, Finset.sum_eq_single_of_mem k (Finset.mem_range.2 hk)]
  · rw [inner_smul_left, inner_smul_right, hV k (by omega) k (by omega), if_pos rfl, mul_one]
  · intro j hj hne
    have hj := Finset.mem_range.1 hj
    rw [inner_smul_left, inner_smul_right, hV k (by omega) j (by omega), if_neg (Ne.symm hne), mul_zero, mul_zero]

theorem map_lin (A : E →ₗ[𝕜] E) (c : Nat → 𝕜) (V : List E) {n : Nat} (hn : n ≤ V.length) : lin c (V.map A) n = A (lin c V n) := by
  unfold lin
  rw [map_sum]
  refine Finset.sum_congr rfl fun k hk => ?_
  have hk := Finset.mem_range.1 hk
  rw [map_smul]
  congr 1
  simp only [List.getD_eq_getElem?_getD, List.getElem?_map, List.getElem?_eq_getElem (show k < V.length by omega), Option.map_some, Option.getD_some]

/-- A Ritz vector is a good pair. -/
theorem ritz_good {A : E →ₗ[𝕜] E} {V : List E} (hV : Ortho 𝕜 V) {n : Nat} (hn : n ≤ V.length) {M : Nat → Nat → 𝕜}
    (hM : ∀ i < n, ∀ j < n, M i j = inner 𝕜 (V.getD i 0) (A (V.getD j 0))) {e : Eig 𝕜} (he : IsEig n (fun i j => -M i j) e) {t : Nat} (ht : t < n) :
    Good A (-e.d t) (lin (fun k => e.U k t) V n) := by
  constructor
  · have h := inner_lin hV hn (fun k => e.U k t) fun k => e.U k t
    rw [he.uu t ht t ht, if_pos rfl, inner_self_eq_norm_sq_to_K] at h
    have h2 : ‖lin (fun k => e.U k t) V n‖ ^ 2 = 1 := by exact_mod_cast h
    have h3 := norm_nonneg (lin (fun k => e.U k t) V n)
    nlinarith
  · have h1 : ∀ i < n, inner 𝕜 (V.getD i 0) (A (lin (fun k => e.U k t) V n)) = -(e.d t : 𝕜) * e.U i t := by
      intro i hi
      have h := he.vec i hi t ht
      rw [neg_mul, ← h, ← Finset.sum_neg_distrib]
      unfold lin
      rw [map_sum, inner_sum]
      refine Finset.sum_congr rfl fun k hk => ?_
      rw [map_smul, inner_smul_right, ← hM i hi k (Finset.mem_range.1 hk)]
      ring
    have h3 : inner 𝕜 (lin (fun k => e.U k t) V n) (A (lin (fun k => e.U k t) V n)) =
        ∑ i ∈ range n, inner 𝕜 (e.U i t • V.getD i 0) (A (lin (fun k => e.U k t) V n)) := by
      rw [← sum_inner]; rfl
    rw [h3]
    have h2 : ∀ i ∈ range n, inner 𝕜 (e.U i t • V.getD i 0) (A (lin (fun k => e.U k t) V n)) = -(e.d t : 𝕜) * ((starRingEnd 𝕜) (e.U i t) * e.U i t) := by
      intro i hi
      rw [inner_smul_left, h1 i (Finset.mem_range.1 hi)]
      ring
    rw [Finset.sum_congr rfl h2, ← Finset.mul_sum, he.uu t ht t ht, if_pos rfl]
    simp

/-- The residual of a Ritz pair is orthogonal to the vectors reached. -/
theorem ritz_orth {A : E →ₗ[𝕜] E} {V : List E} (hV : Ortho 𝕜 V) {n : Nat} (hn : n ≤ V.length) {M : Nat → Nat → 𝕜}
    (hM : ∀ i < n, ∀ j < n, M i j = inner 𝕜 (V.getD i 0) (A (V.getD j 0))) {e : Eig 𝕜} (he : IsEig n (fun i j => -M i j) e) {t : Nat} (ht : t < n) {i : Nat} (hi : i < n) :
    inner 𝕜 (V.getD i 0) (A (lin (fun k => e.U k t) V n) - ((-e.d t : ℝ) : 𝕜) • lin (fun k => e.U k t) V n) = 0 := by
  have h1 : inner 𝕜 (V.getD i 0) (A (lin (fun k => e.U k t) V n)) = -(e.d t : 𝕜) * e.U i t := by
    have h := he.vec i hi t ht
    rw [neg_mul, ← h, ← Finset.sum_neg_distrib]
    unfold lin
    rw [map_sum, inner_sum]
    refine Finset.sum_congr rfl fun k hk => ?_
    rw [map_smul, inner_smul_right, ← hM i hi k (Finset.mem_range.1 hk)]
    ring
  have h2 : inner 𝕜 (V.getD i 0) (lin (fun k => e.U k t) V n) = e.U i t := by
    unfold lin
    rw [inner_sum, Finset.sum_eq_single_of_mem i (Finset.mem_range.2 hi)]
    · rw [inner_smul_right, hV i (by omega) i (by omega), if_pos rfl, mul_one]
    · intro j hj hne
      rw [inner_smul_right, hV i (by omega) j (by have := Finset.mem_range.1 hj; omega), if_neg (Ne.symm hne), mul_zero]
  rw [inner_sub_right, inner_smul_right, h1, h2]
  push_cast
  ring

/-- The vectors which are combinations of the first `n` vectors of `V`. -/
def linSpan (𝕜 : Type*) {E : Type*} [RCLike 𝕜] [NormedAddCommGroup E] [InnerProductSpace 𝕜 E] (V : List E) (n : Nat) : Submodule 𝕜 E :=
  Submodule.span 𝕜 {x | ∃ k < n, x = V.getD k 0}

theorem lin_mem (c : Nat → 𝕜) (V : List E) (n : Nat) : lin c V n ∈ linSpan 𝕜 V n :=
  Submodule.sum_mem _ fun k hk => Submodule.smul_mem _ _ (Submodule.subset_span ⟨k, Finset.mem_range.1 hk, rfl⟩)

theorem exists_lin {V : List E} {n : Nat} {y : E} (h : y ∈ linSpan 𝕜 V n) : ∃ c : Nat → 𝕜, y = lin c V n := by
  unfold linSpan at h
  induction h using Submodule.span_induction with
  | mem x hx =>
    obtain ⟨k, hk, rfl⟩ := hx
    refine ⟨fun i => if i = k then 1 else 0, ?_⟩
    unfold lin
    rw [Finset.sum_eq_single_of_mem k (Finset.mem_range.2 hk)]
    · simp
    · intro j _ hj; simp [hj]
  | zero => exact ⟨fun _ => 0, by simp [lin]⟩
  | add x y _ _ hx hy =>
    obtain ⟨c, rfl⟩ := hx
    obtain ⟨d, rfl⟩ := hy
    exact ⟨fun k => c k + d k, by simp [lin, add_smul, Finset.sum_add_distrib]⟩
  | smul a x _ hx =>
    obtain ⟨c, rfl⟩ := hx
    exact ⟨fun k => a * c k, by simp [lin, mul_smul, Finset.smul_sum]⟩

/-- The smallest value is a lower bound on the whole space spanned. -/
theorem lowest_le {A : E →ₗ[𝕜] E} {V : List E} (hV : Ortho 𝕜 V) {n : Nat} (hn : n ≤ V.length) (h0 : 0 < n) {M : Nat → Nat → 𝕜}
    (hM : ∀ i < n, ∀ j < n, M i j = inner 𝕜 (V.getD i 0) (A (V.getD j 0))) {e : Eig 𝕜} (he : IsEig n (fun i j => -M i j) e)
    {y : E} (hy : y ∈ linSpan 𝕜 V n) : -e.d 0 * ‖y‖ ^ 2 ≤ RCLike.re (inner 𝕜 y (A y)) := by
  obtain ⟨c, rfl⟩ := exists_lin hy
  let a : Nat → 𝕜 := fun t => ∑ j ∈ range n, (starRingEnd 𝕜) (e.U j t) * c j
  -- coefficients are recovered
  have hc : ∀ i < n, ∑ t ∈ range n, e.U i t * a t = c i := by
    intro i hi
    simp only [a, Finset.mul_sum]
    rw [Finset.sum_comm]
    have : ∀ j ∈ range n, ∑ t ∈ range n, e.U i t * ((starRingEnd 𝕜) (e.U j t) * c j) = if i = j then c j else 0 := by
      intro j hj
      simp only [← mul_assoc]
      rw [← Finset.sum_mul, he.uu' i hi j (Finset.mem_range.1 hj)]
      split <;> simp
    rw [Finset.sum_congr rfl this, Finset.sum_ite_eq, if_pos (Finset.mem_range.2 hi)]
  have hconj : ∀ t, ∑ i ∈ range n, (starRingEnd 𝕜) (c i) * e.U i t = (starRingEnd 𝕜) (a t) := by
    intro t
    simp only [a, map_sum, map_mul, RingHomCompTriple.comp_apply, RingHom.id_apply]
    exact Finset.sum_congr rfl fun i _ => by ring
  have hnorm : ((‖lin c V n‖ ^ 2 : ℝ) : 𝕜) = ((∑ t ∈ range n, ‖a t‖ ^ 2 : ℝ) : 𝕜) := by
    have h := inner_lin hV hn c c
    rw [inner_self_eq_norm_sq_to_K] at h
    push_cast
    rw [h]
    have : ∀ i ∈ range n, (starRingEnd 𝕜) (c i) * c i = ∑ t ∈ range n, (starRingEnd 𝕜) (c i) * e.U i t * a t := by
      intro i hi
      conv_lhs => arg 2; rw [← hc i (Finset.mem_range.1 hi)]
      rw [Finset.mul_sum]
      exact Finset.sum_congr rfl fun t _ => by ring
    rw [Finset.sum_congr rfl this, Finset.sum_comm]
    refine Finset.sum_congr rfl fun t _ => ?_
    rw [← Finset.sum_mul, hconj, RCLike.conj_mul]
  have hA : inner 𝕜 (lin c V n) (A (lin c V n)) = ((-∑ t ∈ range n, e.d t * ‖a t‖ ^ 2 : ℝ) : 𝕜) := by
    have h1 : inner 𝕜 (lin c V n) (A (lin c V n)) = ∑ i ∈ range n, (starRingEnd 𝕜) (c i) * ∑ j ∈ range n, M i j * c j := by
      have : inner 𝕜 (lin c V n) (A (lin c V n)) = ∑ i ∈ range n, inner 𝕜 (c i • V.getD i 0) (A (lin c V n)) := by
        rw [← sum_inner]; rfl
      rw [this]
      refine Finset.sum_congr rfl fun i hi => ?_
      rw [inner_smul_left]
      congr 1
      unfold lin
      rw [map_sum, inner_sum]
      refine Finset.sum_congr rfl fun k hk => ?_
      rw [map_smul, inner_smul_right, ← hM i (Finset.mem_range.1 hi) k (Finset.mem_range.1 hk)]
      ring
    have h2 : ∀ i < n, ∑ j ∈ range n, M i j * c j = ∑ t ∈ range n, -((e.d t : 𝕜) * e.U i t * a t) := by
      intro i hi
      have : ∀ j ∈ range n, M i j * c j = ∑ t ∈ range n, -(-M i j * e.U j t * a t) := by
        intro j hj
        conv_lhs => rw [← hc j (Finset.mem_range.1 hj)]
        rw [Finset.mul_sum]
        exact Finset.sum_congr rfl fun t _ => by ring
      rw [Finset.sum_congr rfl this, Finset.sum_comm]
      refine Finset.sum_congr rfl fun t ht => ?_
      rw [Finset.sum_neg_distrib, ← Finset.sum_mul, he.vec i hi t (Finset.mem_range.1 ht)]
    rw [h1, Finset.sum_congr rfl fun i hi => by rw [h2 i (Finset.mem_range.1 hi), Finset.mul_sum], Finset.sum_comm]
    push_cast
    rw [← Finset.sum_neg_distrib]
    refine Finset.sum_congr rfl fun t _ => ?_
    rw [← RCLike.conj_mul, ← hconj, Finset.sum_mul, Finset.mul_sum, ← Finset.sum_neg_distrib]
    exact Finset.sum_congr rfl fun i _ => by ring
  rw [hA, RCLike.ofReal_re]
  have hnorm' : ‖lin c V n‖ ^ 2 = ∑ t ∈ range n, ‖a t‖ ^ 2 := by exact_mod_cast hnorm
  rw [hnorm', neg_mul, neg_le_neg_iff, Finset.mul_sum]
  exact Finset.sum_le_sum fun t ht => mul_le_mul_of_nonneg_right (he.desc 0 t (Nat.zero_le _) (Finset.mem_range.1 ht)) (by positivity)

/-- A Gram-Schmidt pass against an orthonormal list gives a vector orthogonal to it. -/
theorem gsPass_eq (V : List E) (q : E) : gsPass 𝕜 V q = q - ∑ k ∈ range V.length, inner 𝕜 (V.getD k 0) q • V.getD k 0 := by
  unfold gsPass
  have : ∀ (W : List E) (z : E), (W.map fun v => (inner 𝕜 v q, v)).foldl (fun s p => s + (-p.1) • p.2) z = z - ∑ k ∈ range W.length, inner 𝕜 (W.getD k 0) q • W.getD k 0 := by
    intro W
    induction W with
    | nil => intro z; simp
    | cons w W ih =>
      intro z
      rw [List.map_cons, List.foldl_cons, ih, List.length_cons, Finset.sum_range_succ']
      simp only [List.getD_cons_succ, List.getD_cons_zero, neg_smul]
      abel
  exact this V q

theorem gsPass_orth {V : List E} (hV : Ortho 𝕜 V) (q : E) {i : Nat} (hi : i < V.length) : inner 𝕜 (V.getD i 0) (gsPass 𝕜 V q) = 0 := by
  rw [gsPass_eq, inner_sub_right, inner_sum, Finset.sum_eq_single_of_mem i (Finset.mem_range.2 hi)]
  · rw [inner_smul_right, hV i hi i hi, if_pos rfl, mul_one, sub_self]
  · intro j hj hne
    rw [inner_smul_right, hV i hi j (Finset.mem_range.1 hj), if_neg (Ne.symm hne), mul_zero]

theorem norm_scaled {x : E} (h : ‖x‖ ≠ 0) : ‖((1 / ‖x‖ : ℝ) : 𝕜) • x‖ = 1 := by
  rw [norm_smul, RCLike.norm_ofReal, abs_of_nonneg (by positivity)]
  field_simp

/-- The orthogonalization succeeds unless it gives up; a vector it returns extends the orthonormal list. -/
theorem orthog_ok {rnd : Nat → E} (hr : ∀ n, rnd n ≠ 0) (maxsize : Nat) {V : List E} (hV : Ortho 𝕜 V) (fuel tot : Nat) (q : E) (nr : Nat) :
    ∃ r, orthog (𝕜 := 𝕜) rnd maxsize V fuel tot q nr = .ok r ∧
      ∀ x, r.1 = some x → ‖x‖ = 1 ∧ ∀ i < V.length, inner 𝕜 (V.getD i 0) x = 0 := by
  induction fuel generalizing tot q nr with
  | zero => exact ⟨_, rfl, by intro x hx; cases hx⟩
  | succ fuel ih =>
    rw [orthog]
    split
    · split
      · exact ⟨_, rfl, by intro x hx; cases hx⟩
      · split
        · exact ⟨_, rfl, by intro x hx; cases hx⟩
        · rw [if_neg (by simpa using hr nr)]
          exact ih _ _ _
    · rename_i hq
      refine ⟨_, rfl, ?_⟩
      intro x hx
      injection hx with hx
      subst hx
      have h0 : ‖gsPass 𝕜 V q‖ ≠ 0 := by
        intro e
        rw [e] at hq
        exact hq (by positivity)
      refine ⟨norm_scaled h0, fun i hi => ?_⟩
      rw [inner_smul_right, gsPass_orth hV q hi, mul_zero]

theorem getD_append_left' {V W : List E} {k : Nat} (h : k < V.length) : (V ++ W).getD k 0 = V.getD k 0 := by
  simp [List.getD_eq_getElem?_getD, List.getElem?_append_left h]

theorem getD_append_last {V : List E} {x : E} : (V ++ [x]).getD V.length 0 = x := by
  simp [List.getD_eq_getElem?_getD]

theorem ortho_append {V : List E} (hV : Ortho 𝕜 V) {x : E} (hx : ‖x‖ = 1) (ho : ∀ i < V.length, inner 𝕜 (V.getD i 0) x = 0) : Ortho 𝕜 (V ++ [x]) := by
  intro i hi j hj
  simp only [List.length_append, List.length_singleton] at hi hj
  rcases Nat.lt_or_ge i V.length with h1 | h1
  · rcases Nat.lt_or_ge j V.length with h2 | h2
    · rw [getD_append_left' h1, getD_append_left' h2]; exact hV i h1 j h2
    · obtain rfl : j = V.length := by omega
      rw [getD_append_left' h1, getD_append_last, ho i h1, if_neg (by omega)]
  · obtain rfl : i = V.length := by omega
    rcases Nat.lt_or_ge j V.length with h2 | h2
    · rw [getD_append_left' h2, getD_append_last, ← inner_conj_symm, ho j h2, map_zero, if_neg (by omega)]
    · obtain rfl : j = V.length := by omega
      rw [getD_append_last, if_pos rfl, inner_self_eq_norm_sq_to_K, hx]
      simp

/-- What is claimed of the first value and vector: the value is the minimum of the Rayleigh quotient over a space which contains the vector and the initial one, and also
the product with the initial one if `P`. -/
def Best (A : E →ₗ[𝕜] E) (P : Prop) (v : E) (l : ℝ) (x : E) : Prop :=
  ∃ S : Submodule 𝕜 E, v ∈ S ∧ x ∈ S ∧ (P → A v ∈ S) ∧ ∀ y ∈ S, l * ‖y‖ ^ 2 ≤ RCLike.re (inner 𝕜 y (A y))

/-- What is claimed of pair number `j`. -/
def Pair (A : E →ₗ[𝕜] E) (P : Prop) (v : E) (j : Nat) (l : ℝ) (x : E) : Prop := Good A l x ∧ (j = 0 → Best A P v l x)

/-- Pair number `j` of a state is as claimed. -/
def Has (A : E →ₗ[𝕜] E) (P : Prop) (v : E) (eigs : List (Option ℝ)) (phi : List E) (j : Nat) : Prop :=
  ∃ l x, eigs[j]? = some (some l) ∧ phi[j]? = some x ∧ Pair A P v j l x

/-- The latest diagonalization gives good pairs. -/
def LastOK (A : E →ₗ[𝕜] E) (V : List E) (B : Nat) (last : Option (Nat × Eig 𝕜)) : Prop :=
  ∀ n e, last = some (n, e) → 0 < n ∧ n ≤ V.length ∧ n ≤ B + 1 ∧ ∀ j < n, Good A (e.d j) (lin (fun k => e.U k j) V n)

/-- The invariant of the loop. -/
structure DInv (A : E →ₗ[𝕜] E) (P : Prop) (v : E) (nget ii : Nat) (s : DSt 𝕜 E) : Prop where
  lenV : s.V.length = ii + 1
  av : s.AV = s.V.map A
  on : Ortho 𝕜 s.V
  v0 : s.V.getD 0 0 = v
  m : 0 < ii → ∀ i ≤ ii, ∀ j ≤ ii, s.M i j = inner 𝕜 (s.V.getD i 0) (A (s.V.getD j 0))
  tle : s.t ≤ ii
  tlt : s.t < nget
  lp : s.phi.length = nget
  le : s.eigs.length = nget
  pairs : ∀ j < s.t, Has A P v s.eigs s.phi j
  rest : ∀ j, s.t < j → j < nget → s.eigs[j]? = some none
  ph0 : ii = 0 → s.phi[0]? = some v
  avin : 0 < ii → P → A v ∈ linSpan 𝕜 s.V (ii + 1)
  last : LastOK A s.V ii s.last

/-- What holds after the loop. -/
structure DPost (A : E →ₗ[𝕜] E) (P : Prop) (v : E) (nget B : Nat) (s : DSt 𝕜 E) : Prop where
  tle : s.t ≤ B
  tlt : s.t < nget
  lp : s.phi.length = nget
  le : s.eigs.length = nget
  pairs : ∀ j < s.t, Has A P v s.eigs s.phi j
  cur : Has A P v s.eigs s.phi s.t ∨ (0 < s.t ∧ s.eigs[s.t]? = some none)
  rest : ∀ j, s.t < j → j < nget → s.eigs[j]? = some none
  last : LastOK A s.V B s.last

theorem Good.neg {A : E →ₗ[𝕜] E} {l : ℝ} {x : E} (h : Good A l x) : Good A l (-x) :=
  ⟨by rw [norm_neg]; exact h.norm, by rw [map_neg, inner_neg_neg]; exact h.val⟩

/-- What the first part of an iteration does: pair `t` is set; the residual is `A x - l x`. -/
theorem ritz_ok {A : E →ₗ[𝕜] E} (hA : A.IsSymmetric) {diag : Nat → (Nat → Nat → 𝕜) → Eig 𝕜} (hd : DiagOK diag) {P : Prop} {v : E} {nget ii : Nat} {s : DSt 𝕜 E}
    (h : DInv A P v nget ii s) :
    ∃ s' l x, ritz diag (RCLike.re (inner 𝕜 v (A v))) ii s = .ok (s', l, A x - (l : 𝕜) • x) ∧
      s'.V = s.V ∧ s'.AV = s.AV ∧ s'.t = s.t ∧ s'.nr = s.nr ∧ s'.lastLam = s.lastLam ∧
      (∀ i ≤ ii, ∀ j ≤ ii, s'.M i j = inner 𝕜 (s.V.getD i 0) (A (s.V.getD j 0))) ∧
      s'.eigs = s.eigs.set s.t (some l) ∧ s'.phi.length = nget ∧ s'.phi[s.t]? = some x ∧ (∀ j, j ≠ s.t → s'.phi[j]? = s.phi[j]?) ∧
      Good A l x ∧ (s.t = 0 → 0 < ii ∨ ¬P → Best A P v l x) ∧ (ii = 0 → x = v ∧ l = RCLike.re (inner 𝕜 v (A v))) ∧ LastOK A s.V ii s'.last ∧
      ∀ i < s.V.length, inner 𝕜 (s.V.getD i 0) (A x - (l : 𝕜) • x) = 0 := by
  have hV := h.lenV
  have hv : ‖v‖ = 1 := by
    have := h.on 0 (by omega) 0 (by omega)
    rw [h.v0, if_pos rfl, inner_self_eq_norm_sq_to_K] at this
    have h2 : ‖v‖ ^ 2 = 1 := by exact_mod_cast this
    have h3 := norm_nonneg v
    nlinarith
  have hre : inner 𝕜 v (A v) = ((RCLike.re (inner 𝕜 v (A v)) : ℝ) : 𝕜) := (hA.coe_re_inner_self_apply v).symm
  unfold ritz
  by_cases hii : ii = 0
  · subst hii
    rw [if_pos rfl]
    obtain ⟨w, hw⟩ : ∃ w, s.V = [w] := List.length_eq_one_iff.1 hV
    have hwv : w = v := by have := h.v0; rw [hw] at this; simpa using this
    subst hwv
    have ht : s.t = 0 := by have := h.tle; omega
    have hAV : s.AV = [A w] := by rw [h.av, hw]; rfl
    refine ⟨{ s with eigs := s.eigs.set s.t (some (RCLike.re (inner 𝕜 w (A w)))), M := fun i j => if i = 0 ∧ j = 0 then ((RCLike.re (inner 𝕜 w (A w)) : ℝ) : 𝕜) else s.M i j },
      RCLike.re (inner 𝕜 w (A w)), w, ?_, rfl, rfl, rfl, rfl, rfl, ?_, rfl, h.lp, ?_, fun _ _ => rfl, ⟨hv, hre⟩, ?_, fun _ => ⟨rfl, rfl⟩, h.last, ?_⟩
    · rw [hw, hAV]
      dsimp only
      rw [if_pos (by rw [h.le]; exact h.tlt)]
    · intro i hi j hj
      obtain rfl : i = 0 := by omega
      obtain rfl : j = 0 := by omega
      simp only [hw, and_self, if_true]
      exact hre.symm
    · rw [ht]; exact h.ph0 rfl
    · intro _ hP
      rcases hP with hP | hP
      · omega
      refine ⟨linSpan 𝕜 [w] 1, ?_, ?_, fun p => absurd p hP, ?_⟩
      · exact Submodule.subset_span ⟨0, by omega, rfl⟩
      · exact Submodule.subset_span ⟨0, by omega, rfl⟩
      · intro y hy
        obtain ⟨c, rfl⟩ := exists_lin hy
        have : lin c [w] 1 = c 0 • w := by simp [lin]
        rw [this, map_smul, inner_smul_left, inner_smul_right, norm_smul, hv, hre, ← mul_assoc, RCLike.conj_mul, RCLike.ofReal_re]
        rw [mul_one, mul_comm]
        have : ((‖c 0‖ : 𝕜)) ^ 2 * ((RCLike.re (inner 𝕜 w (A w)) : ℝ) : 𝕜) = ((‖c 0‖ ^ 2 * RCLike.re (inner 𝕜 w (A w)) : ℝ) : 𝕜) := by push_cast; rfl
        rw [this, RCLike.ofReal_re]
    · intro i hi
      obtain rfl : i = 0 := by omega
      rw [hw]
      show inner 𝕜 w _ = _
      rw [inner_sub_right, inner_smul_right, inner_self_eq_norm_sq_to_K, hv, ← hre]
      simp
  · rw [if_neg hii]
    have hpos : 0 < ii := by omega
    have hM := h.m hpos
    have hM' : ∀ i < ii + 1, ∀ j < ii + 1, s.M i j = inner 𝕜 (s.V.getD i 0) (A (s.V.getD j 0)) := fun i hi j hj => hM i (by omega) j (by omega)
    have he : IsEig (ii + 1) (fun i j => -s.M i j) (diag (ii + 1) fun i j => -s.M i j) := by
      refine hd _ _ (by omega) fun i hi j hj => ?_
      rw [map_neg, hM' i hi j hj, hM' j hj i hi, inner_conj_symm, hA]
    generalize hee : diag (ii + 1) (fun i j => -s.M i j) = e at he
    have htn : s.t < ii + 1 := by have := h.tle; omega
    have hg := fun t ht => ritz_good (t := t) h.on (n := ii + 1) (by omega) hM' he ht
    dsimp only
    rw [if_pos ⟨by rw [h.le]; exact h.tlt, by rw [h.lp]; exact h.tlt⟩, if_pos htn]
    have hc : comb (fun k => e.U k s.t) s.AV (ii + 1) = .ok (A (lin (fun k => e.U k s.t) s.V (ii + 1))) := by
      rw [h.av, comb_ok _ _ (by omega) (by rw [List.length_map]; omega), map_lin A _ _ (by omega)]
    rw [comb_ok _ _ (by omega) (by omega), Res.bind_ok, hc, Res.bind_ok]
    generalize hX : lin (fun k => e.U k s.t) s.V (ii + 1) = X
    have hgX : Good A (-e.d s.t) X := hX ▸ hg s.t htn
    refine ⟨{ s with eigs := s.eigs.set s.t (some (-e.d s.t)), phi := s.phi.set s.t (if RCLike.re (e.U 0 s.t) < 0 then -X else X), last := some (ii + 1, ⟨fun k => -e.d k, e.U⟩) },
      -e.d s.t, if RCLike.re (e.U 0 s.t) < 0 then -X else X, ?_, rfl, rfl, rfl, rfl, rfl, hM, rfl, by simp [h.lp], ?_, ?_, ?_, ?_, fun e => absurd e hii, ?_, ?_⟩
    · congr 3
      split
      · rw [map_neg, smul_neg, neg_smul]; abel
      · rw [neg_smul]; abel
    · have := h.tlt; have := h.lp; dsimp only; rw [List.getElem?_set_self (by omega)]
    · intro j hj; dsimp only; rw [List.getElem?_set_ne (Ne.symm hj)]
    · split
      · exact hgX.neg
      · exact hgX
    · intro ht0 _
      have hmem : X ∈ linSpan 𝕜 s.V (ii + 1) := hX ▸ lin_mem _ _ _
      refine ⟨linSpan 𝕜 s.V (ii + 1), ?_, ?_, h.avin hpos, ?_⟩
      · rw [← h.v0]; exact Submodule.subset_span ⟨0, by omega, rfl⟩
      · split
        · exact Submodule.neg_mem _ hmem
        · exact hmem
      · intro y hy
        rw [ht0]
        exact lowest_le h.on (by omega) (by omega) hM' he hy
    · intro n e' hn
      injection hn with hn
      injection hn with h1 h2
      subst h1; subst h2
      exact ⟨by omega, by omega, le_refl _, fun j hj => hg j hj⟩
    · intro i hi
      have := ritz_orth h.on (n := ii + 1) (by omega) hM' he htn (show i < ii + 1 by omega)
      rw [hX] at this
      split
      · rw [map_neg, smul_neg, ← neg_sub', inner_neg_right, this, neg_zero]
      · exact this

/-- The condition under which the product with the initial vector is among the vectors searched. -/
def Searches (A : E →ₗ[𝕜] E) (o : DOpts) (act : Nat) (v : E) : Prop :=
  1 ≤ act ∧ 1 ≤ o.miniter ∧ 1 / 10 ^ 10 ≤ ‖A v - ((RCLike.re (inner 𝕜 v (A v)) : ℝ) : 𝕜) • v‖

theorem linSpan_append {V : List E} {x : E} {n m : Nat} (hn : n ≤ V.length) (hm : n ≤ m) {y : E} (h : y ∈ linSpan 𝕜 V n) : y ∈ linSpan 𝕜 (V ++ [x]) m := by
  refine Submodule.span_mono ?_ h
  rintro z ⟨k, hk, rfl⟩
  exact ⟨k, by omega, (getD_append_left' (by omega)).symm⟩

theorem lin_append {V : List E} {x : E} {n : Nat} (hn : n ≤ V.length) (c : Nat → 𝕜) : lin c (V ++ [x]) n = lin c V n :=
  Finset.sum_congr rfl fun k hk => by rw [getD_append_left' (by have := Finset.mem_range.1 hk; omega)]

theorem LastOK.append {A : E →ₗ[𝕜] E} {V : List E} {B B' : Nat} {last : Option (Nat × Eig 𝕜)} {x : E} (h : LastOK A V B last) (hB : B ≤ B') : LastOK A (V ++ [x]) B' last := by
  intro n e hl
  obtain ⟨h1, h2, h3, h4⟩ := h n e hl
  refine ⟨h1, by simp; omega, by omega, fun j hj => ?_⟩
  rw [lin_append h2]
  exact h4 j hj

theorem LastOK.mono {A : E →ₗ[𝕜] E} {V : List E} {B B' : Nat} {last : Option (Nat × Eig 𝕜)} (h : LastOK A V B last) (hB : B ≤ B') : LastOK A V B' last := by
  intro n e hl
  obtain ⟨h1, h2, h3, h4⟩ := h n e hl
  exact ⟨h1, h2, by omega, h4⟩

/-- The new vector when the residual is not small: a multiple of the residual. -/
theorem orthog_big (rnd : Nat → E) (maxsize : Nat) (V : List E) (fuel tot : Nat) (q : E) (nr : Nat) (h : ¬‖gsPass 𝕜 V q‖ < 1 / 10 ^ 10) :
    orthog (𝕜 := 𝕜) rnd maxsize V (fuel + 1) tot q nr = .ok (some (((1 / ‖gsPass 𝕜 V q‖ : ℝ) : 𝕜) • gsPass 𝕜 V q), nr) := by
  rw [orthog, if_neg h]

/-- The invariant after the next vector has been added. -/
theorem expand_inv {A : E →ₗ[𝕜] E} (hA : A.IsSymmetric) {P : Prop} {v : E} {nget ii : Nat} {s s2 : DSt 𝕜 E} (h : DInv A P v nget ii s) (e2V : s2.V = s.V) (e2AV : s2.AV = s.AV)
    (eM : ∀ i ≤ ii, ∀ j ≤ ii, s2.M i j = inner 𝕜 (s.V.getD i 0) (A (s.V.getD j 0))) (elp : s2.phi.length = nget) (ele : s2.eigs.length = nget)
    (htle : s2.t ≤ ii + 1) (htlt : s2.t < nget) (hp2 : ∀ j < s2.t, Has A P v s2.eigs s2.phi j) (hr2 : ∀ j, s2.t < j → j < nget → s2.eigs[j]? = some none)
    (hl : LastOK A s.V ii s2.last) {y : E} (hy1 : ‖y‖ = 1) (hy2 : ∀ i < s.V.length, inner 𝕜 (s.V.getD i 0) y = 0)
    (hav : P → A v ∈ linSpan 𝕜 (s.V ++ [y]) (ii + 1 + 1)) (nr : Nat) : DInv A P v nget (ii + 1) (expand A s2 y nr) := by
  have hlenV := h.lenV
  have hcol : ∀ k, k ≤ ii + 1 → ((expand (⇑A) s2 y nr).V).getD k 0 = (s.V ++ [y]).getD k 0 := by
    intro k _; show (s2.V ++ [y]).getD k 0 = _; rw [e2V]
  have hlast : (s.V ++ [y]).getD (ii + 1) 0 = y := by rw [← hlenV]; exact getD_append_last
  constructor
  · show (s2.V ++ [y]).length = _; rw [e2V]; simp [hlenV]
  · show s2.AV ++ [A y] = (s2.V ++ [y]).map A; rw [e2V, e2AV, h.av]; simp
  · show Ortho 𝕜 (s2.V ++ [y]); rw [e2V]; exact ortho_append h.on hy1 hy2
  · show (s2.V ++ [y]).getD 0 0 = v; rw [e2V, getD_append_left' (by omega)]; exact h.v0
  · intro _ i hi j hj
    rw [hcol i hi, hcol j hj]
    show (if i = s2.V.length then (starRingEnd 𝕜) (inner 𝕜 ((s2.V ++ [y]).getD j 0) (A y)) else
      if j = s2.V.length then inner 𝕜 ((s2.V ++ [y]).getD i 0) (A y) else s2.M i j) = _
    rw [e2V, hlenV]
    split
    · rename_i hi'
      rw [hi', hlast, inner_conj_symm, hA]
    · split
      · rename_i hj'
        rw [hj', hlast]
      · rw [eM i (by omega) j (by omega), getD_append_left' (by omega), getD_append_left' (by omega)]
  · exact htle
  · exact htlt
  · exact elp
  · exact ele
  · exact hp2
  · exact hr2
  · intro hc; omega
  · intro _ hP
    show A v ∈ linSpan 𝕜 (s2.V ++ [y]) (ii + 1 + 1)
    rw [e2V]
    exact hav hP
  · show LastOK A (s2.V ++ [y]) _ s2.last
    rw [e2V]
    exact hl.append (by omega)

/-- The loop ends normally, and what is claimed holds of the state it leaves. -/
theorem davLoop_ok {A : E →ₗ[𝕜] E} (hA : A.IsSymmetric) {diag : Nat → (Nat → Nat → 𝕜) → Eig 𝕜} (hd : DiagOK diag) {rnd : Nat → E} (hr : ∀ n, rnd n ≠ 0)
    (o : DOpts) (maxsize : Nat) {v : E} {nget : Nat} (rem : Nat) : ∀ (ii : Nat) {s : DSt 𝕜 E},
    DInv A (Searches A o (ii + rem) v) v nget ii s →
    ∃ s', davLoop A diag rnd o maxsize nget (RCLike.re (inner 𝕜 v (A v))) rem ii s = .ok s' ∧ DPost A (Searches A o (ii + rem) v) v nget (ii + rem) s' := by
  induction rem with
  | zero =>
    intro ii s h
    obtain ⟨s', l, x, e, eV, eAV, et, enr, ell, eM, ee, elp, ex, epo, hg, hb, h0, hl, -⟩ := ritz_ok hA hd h
    rw [davLoop, e]
    simp only [Res.bind_ok]
    rw [if_pos (by simp)]
    refine ⟨_, rfl, ?_⟩
    have hlt := h.tlt
    have hle := h.le
    have hhas : Has A (Searches A o (ii + 0) v) v s'.eigs s'.phi s'.t := by
      refine ⟨l, x, ?_, et ▸ ex, hg, fun ht => hb (by omega) ?_⟩
      · rw [ee, et, List.getElem?_set_self (by omega)]
      · rcases Nat.eq_zero_or_pos ii with hi | hi
        · right; rintro ⟨ha, -, -⟩; omega
        · exact Or.inl hi
    constructor
    · show s'.t ≤ _; rw [et]; exact h.tle
    · show s'.t < _; rw [et]; exact hlt
    · exact elp
    · show s'.eigs.length = _; rw [ee, List.length_set, hle]
    · intro j hj
      rw [show (({ s' with lastLam := l } : DSt 𝕜 E)).t = s.t from et] at hj
      obtain ⟨l', x', h1, h2, h3⟩ := h.pairs j hj
      refine ⟨l', x', ?_, ?_, h3⟩
      · show s'.eigs[j]? = _; rw [ee, List.getElem?_set_ne (by omega), h1]
      · show s'.phi[j]? = _; rw [epo j (by omega), h2]
    · exact Or.inl hhas
    · intro j h1 h2
      rw [show (({ s' with lastLam := l } : DSt 𝕜 E)).t = s.t from et] at h1
      show s'.eigs[j]? = _
      rw [ee, List.getElem?_set_ne (by omega), h.rest j h1 h2]
    · show LastOK A s'.V _ s'.last; rw [eV]; exact hl
  | succ rem ih =>
    intro ii s h
    obtain ⟨s', l, x, e, eV, eAV, et, enr, ell, eM, ee, elp, ex, epo, hg, hb, h0, hl, -⟩ := ritz_ok hA hd h
    rw [davLoop, e]
    simp only [Res.bind_ok]
    have hlt := h.tlt
    have hle := h.le
    set q : E := A x - (l : 𝕜) • x with hq
    have ht' : s'.eigs[s.t]? = some (some l) := by rw [ee, List.getElem?_set_self (by omega)]
    have hleE : s'.eigs.length = nget := by rw [ee, List.length_set, hle]
    have hpairs : ∀ j < s.t, Has A (Searches A o (ii + (rem + 1)) v) v s'.eigs s'.phi j := by
      intro j hj
      obtain ⟨l', x', h1, h2, h3⟩ := h.pairs j hj
      refine ⟨l', x', ?_, ?_, h3⟩
      · rw [ee, List.getElem?_set_ne (by omega), h1]
      · rw [epo j (by omega), h2]
    have hrest : ∀ j, s.t < j → j < nget → s'.eigs[j]? = some none := by
      intro j h1 h2
      rw [ee, List.getElem?_set_ne (by omega), h.rest j h1 h2]
    have hhas : 0 < ii ∨ ¬Searches A o (ii + (rem + 1)) v → Has A (Searches A o (ii + (rem + 1)) v) v s'.eigs s'.phi s.t :=
      fun hor => ⟨l, x, ht', ex, hg, fun h0 => hb h0 hor⟩
    -- if the loop regards this pair as final, the condition fails in the first iteration
    have hfin : ∀ c : Prop, (‖q‖ < 1 / 10 ^ 20 ∨ (c ∧ o.miniter ≤ ii) ∨ rem + 1 = 0) → 0 < ii ∨ ¬Searches A o (ii + (rem + 1)) v := by
      intro c hf
      rcases Nat.eq_zero_or_pos ii with hi | hi
      · right
        rintro ⟨-, h2, h3⟩
        obtain ⟨rfl, rfl⟩ := h0 hi
        rcases hf with hf | ⟨-, hf⟩ | hf
        · rw [← hq] at h3
          have : (1 : ℝ) / 10 ^ 20 ≤ 1 / 10 ^ 10 := by norm_num
          linarith
        · omega
        · omega
      · exact Or.inl hi
    split
    · rename_i hF
      refine ⟨_, rfl, ?_⟩
      constructor
      · show s'.t ≤ _; rw [et]; have := h.tle; omega
      · show s'.t < _; rw [et]; exact hlt
      · exact elp
      · exact hleE
      · intro j hj; exact hpairs j (by rw [← et]; exact hj)
      · left; show Has A _ v s'.eigs s'.phi s'.t; rw [et]; exact hhas (hfin _ hF.1)
      · intro j h1 h2; exact hrest j (by rw [← et]; exact h1) h2
      · show LastOK A s'.V _ s'.last; rw [eV]; exact hl.mono (by omega)
    · rename_i hF
      generalize hs2 : (if (‖q‖ < 1 / 10 ^ 20 ∨ (((‖q‖ < o.errgoal ∧ |l - s'.lastLam| < o.errgoal) ∨ ‖q‖ < max (1 / 10 ^ 12) (o.errgoal * (1 / 1000))) ∧ o.miniter ≤ ii) ∨ rem + 1 = 0) then
        ({ V := s'.V, AV := s'.AV, M := s'.M, phi := s'.phi, eigs := s'.eigs, t := s'.t + 1, lastLam := 1000, last := s'.last, nr := s'.nr } : DSt 𝕜 E)
        else { V := s'.V, AV := s'.AV, M := s'.M, phi := s'.phi, eigs := s'.eigs, t := s'.t, lastLam := l, last := s'.last, nr := s'.nr }) = s2
      have e2 : s2.V = s.V ∧ s2.AV = s.AV ∧ s2.M = s'.M ∧ s2.phi = s'.phi ∧ s2.eigs = s'.eigs ∧ s2.last = s'.last ∧
          ((s2.t = s.t + 1 ∧ s.t + 1 < nget ∧ (0 < ii ∨ ¬Searches A o (ii + (rem + 1)) v)) ∨ s2.t = s.t) := by
        rw [← hs2]
        split
        · rename_i hf
          refine ⟨eV, eAV, rfl, rfl, rfl, rfl, Or.inl ⟨by show s'.t + 1 = _; rw [et], ?_, hfin _ hf⟩⟩
          by_contra hc
          exact hF ⟨hf, fun hh => hc (by rw [← et]; exact hh.1)⟩
        · exact ⟨eV, eAV, rfl, rfl, rfl, rfl, Or.inr et⟩
      obtain ⟨e2V, e2AV, e2M, e2phi, e2eigs, e2last, e2t⟩ := e2
      have htle : s2.t ≤ ii + 1 := by have := h.tle; rcases e2t with ⟨h1, -, -⟩ | h1 <;> omega
      have htlt : s2.t < nget := by rcases e2t with ⟨h1, h2, -⟩ | h1 <;> omega
      have hp2 : ∀ j < s2.t, Has A (Searches A o (ii + (rem + 1)) v) v s2.eigs s2.phi j := by
        intro j hj
        rw [e2eigs, e2phi]
        rcases e2t with ⟨h1, -, h3⟩ | h1
        · rcases Nat.lt_or_ge j s.t with hjt | hjt
          · exact hpairs j hjt
          · obtain rfl : j = s.t := by omega
            exact hhas h3
        · exact hpairs j (by omega)
      have hr2 : ∀ j, s2.t < j → j < nget → s2.eigs[j]? = some none := by
        intro j h1 h2
        rw [e2eigs]
        exact hrest j (by rcases e2t with ⟨h3, -, -⟩ | h3 <;> omega) h2
      rw [e2V]
      obtain ⟨r, er, hrx⟩ := orthog_ok (𝕜 := 𝕜) hr maxsize h.on 4 0 q s2.nr
      rw [er]
      simp only [Res.bind_ok]
      -- the residual of the first iteration is orthogonal to the initial vector
      have hgs : ii = 0 → gsPass 𝕜 s.V q = q := by
        intro hi
        obtain ⟨hxv, hlv⟩ := h0 hi
        have hV1 : s.V.length = 1 := by rw [h.lenV, hi]
        rw [gsPass_eq, hV1, Finset.sum_range_one, h.v0, hq, hxv, hlv, inner_sub_right, inner_smul_right, hA.coe_re_inner_self_apply]
        have hvv : inner 𝕜 v v = (1 : 𝕜) := by
          have := h.on 0 (by omega) 0 (by omega)
          rwa [h.v0, if_pos rfl] at this
        rw [hvv, mul_one, sub_self, zero_smul, sub_zero]
      rcases hr1 : r.1 with _ | y
      · refine ⟨_, rfl, ?_⟩
        constructor
        · show s2.t ≤ _; omega
        · exact htlt
        · show s2.phi.length = _; rw [e2phi, elp]
        · show s2.eigs.length = _; rw [e2eigs, hleE]
        · exact hp2
        · show Has A _ v s2.eigs s2.phi s2.t ∨ (0 < s2.t ∧ s2.eigs[s2.t]? = some none)
          rcases e2t with ⟨h1, h2, h3⟩ | h1
          · right; exact ⟨by omega, by rw [e2eigs, h1]; exact hrest _ (by omega) h2⟩
          · left
            rw [h1, e2eigs, e2phi]
            refine hhas ?_
            rcases Nat.eq_zero_or_pos ii with hi | hi
            · right
              rintro ⟨-, -, h3⟩
              have hbig : ¬‖gsPass 𝕜 s.V q‖ < 1 / 10 ^ 10 := by
                rw [hgs hi]
                obtain ⟨hxv, hlv⟩ := h0 hi
                rw [hq, hxv, hlv]
                exact not_lt.2 h3
              rw [orthog_big _ _ _ _ _ _ _ hbig] at er
              injection er with er
              rw [← er] at hr1
              cases hr1
            · exact Or.inl hi
        · exact hr2
        · show LastOK A s.V _ s2.last
          rw [e2last]
          exact hl.mono (by omega)
      · obtain ⟨hy1, hy2⟩ := hrx y hr1
        have hlenV := h.lenV
        have hlast : (s.V ++ [y]).getD (ii + 1) 0 = y := by rw [← hlenV]; exact getD_append_last
        have hinv : DInv A (Searches A o (ii + 1 + rem) v) v nget (ii + 1) (expand A s2 y r.2) := by
          rw [show ii + 1 + rem = ii + (rem + 1) by omega]
          refine expand_inv hA h e2V e2AV (by rw [e2M]; exact eM) (by rw [e2phi, elp]) (by rw [e2eigs, hleE]) htle htlt hp2 hr2 (by rw [e2last]; exact hl) hy1 hy2 (fun hP => ?_) _
          rcases Nat.eq_zero_or_pos ii with hi | hi
          · have hbig : ¬‖gsPass 𝕜 s.V q‖ < 1 / 10 ^ 10 := by
              rw [hgs hi]
              obtain ⟨hxv, hlv⟩ := h0 hi
              rw [hq, hxv, hlv]
              exact not_lt.2 hP.2.2
            rw [orthog_big _ _ _ _ _ _ _ hbig] at er
            injection er with er
            rw [← er] at hr1
            injection hr1 with hr1
            rw [hgs hi] at hr1 hbig
            have hne : ‖q‖ ≠ 0 := by intro h0; rw [h0] at hbig; exact hbig (by positivity)
            have hqy : q = (‖q‖ : 𝕜) • y := by
              rw [← hr1, smul_smul]
              have : (‖q‖ : 𝕜) * ((1 / ‖q‖ : ℝ) : 𝕜) = 1 := by
                have h1 : ‖q‖ * (1 / ‖q‖) = 1 := by field_simp
                exact_mod_cast congrArg (RCLike.ofReal : ℝ → 𝕜) h1
              rw [this, one_smul]
            obtain ⟨hxv, hlv⟩ := h0 hi
            have hAv : A v = (‖q‖ : 𝕜) • y + (l : 𝕜) • v := by rw [← hqy, hq, hxv]; abel
            rw [hAv]
            refine Submodule.add_mem _ (Submodule.smul_mem _ _ (Submodule.subset_span ⟨ii + 1, by omega, hlast.symm⟩))
              (Submodule.smul_mem _ _ (Submodule.subset_span ⟨0, by omega, ?_⟩))
            rw [getD_append_left' (by omega)]; exact h.v0.symm
          · exact linSpan_append (by omega) (by omega) (h.avin hi hP)
        obtain ⟨s3, e3, h3⟩ := ih (ii + 1) hinv
        refine ⟨s3, e3, ?_⟩
        rw [show ii + 1 + rem = ii + (rem + 1) by omega] at h3
        exact h3

end Verif.Solvers
