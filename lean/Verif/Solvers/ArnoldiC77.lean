import Verif.Solvers.ArnoldiEx

/-!
# C77: what the Arnoldi eigensolver returns
-/

noncomputable section

namespace Verif.Arnoldi

open scoped BigOperators
open Finset (range)

variable {E : Type*} [NormedAddCommGroup E] [InnerProductSpace ℂ E]

/-- `A` with the first `w` pairs of `out` removed: `A - Σ λ |φ⟩⟨φ|`. -/
def without (A : E → E) (out : List (ℂ × E)) (w : Nat) (x : E) : E :=
  A x - ∑ i ∈ range w, ((out.getD i 0).1 * inner ℂ (out.getD i 0).2 x) • (out.getD i 0).2

theorem deflate_without (A : E → E) (out : List (ℂ × E)) {w : Nat} (hw : w ≤ out.length) : deflate A (out.take w) = without A out w := by
  funext x
  rw [deflate_eq, without]
  congr 1
  have : ∀ (l : List (ℂ × E)) (n : Nat), n ≤ l.length → ((l.take n).map fun p => (p.1 * inner ℂ p.2 x) • p.2).sum
      = ∑ i ∈ range n, ((l.getD i 0).1 * inner ℂ (l.getD i 0).2 x) • (l.getD i 0).2 := by
    intro l
    induction l with
    | nil => intro n hn; simp at hn; subst hn; simp
    | cons p l ih =>
      intro n hn
      cases n with
      | zero => simp
      | succ n =>
        rw [List.take_succ_cons, List.map_cons, List.sum_cons, ih n (by simpa using hn), Finset.sum_range_succ']
        simp [add_comm]
  exact this out w hw

/-- What the caller has to supply. -/
structure Given (A : E → E) (size : Nat) (eigen : Nat → (Nat → Nat → ℂ) → CEig) (o : Opts) (phi : List E) : Prop where
  lin : IsLinearMap ℂ A
  eig : EigenOK eigen
  dim : Module.finrank ℂ E = size
  which : o.which ≠ .other
  goal : 0 < o.errgoal
  some : phi ≠ []
  nz : ∀ x ∈ phi, x ≠ 0
  few : phi.length ≤ size

/-- **C77.** For a space of dimension at least two `arnoldi` returns as many pairs as there are starting vectors. Pair number `w` is an extreme normalized Ritz
pair of the operator `B` from which the pairs before have been removed, in the space spanned by `v`, `B v`, …, `B^j v`; the error is below `ErrGoal` or all
products allowed have been used, and with `MaxIter` at least the dimension minus one the error is below `ErrGoal`. Without restarts `v` is the normalized
starting vector. Partial: with more than one vector the pairs need not be pairs of `A`, see the counterexamples. -/
theorem C77_pairs_partial {A : E → E} {size : Nat} {eigen : Nat → (Nat → Nat → ℂ) → CEig} {o : Opts} {phi : List E} (h : Given A size eigen o phi) (hs : 2 ≤ size)
    (rnd : Nat → E) :
    ∃ out, arnoldi A size eigen rnd o phi = .ok out ∧ out.length = phi.length ∧ ∀ w, w < out.length →
      let B := without A out w
      let lam := (out.getD w 0).1
      let x := (out.getD w 0).2
      (∃ v j, ‖v‖ = 1 ∧ (o.maxrestart ≤ 0 → v = ((1 / ‖phi.getD w 0‖ : ℝ) : ℂ) • phi.getD w 0) ∧ j < size ∧ (j : Int) ≤ max 1 o.maxiter ∧ Found B o.which v j lam x ∧
        (‖B x - lam • x‖ < o.errgoal ∨ (j : Int) = max 1 o.maxiter)) ∧
      ((size : Int) ≤ max 1 o.maxiter + 1 → ‖B x - lam • x‖ < o.errgoal) := by
  set last : Nat := (min (if o.maxiter < 1 then 1 else o.maxiter) ((size : Int) - 1)).toNat with hlast
  set rem : Nat := (if o.maxrestart < 0 then 0 else o.maxrestart).toNat with hrem
  set l := phi.map fun x => ((1 / ‖x‖ : ℝ) : ℂ) • x with hl
  obtain ⟨new, e, h1, h2⟩ := solveAll_ok h.lin h.eig rnd h.which h.goal last rem l
    (by
      intro x hx
      obtain ⟨y, hy, rfl⟩ := List.mem_map.1 hx
      exact Solvers.norm_scaled (𝕜 := ℂ) (norm_ne_zero_iff.2 (h.nz y hy))) [] (H := fun _ _ => 0) (fun _ _ _ => rfl) 0
  have hll : l.length = phi.length := by rw [hl, List.length_map]
  have hl1 : (last : Int) = min (max 1 o.maxiter) ((size : Int) - 1) := by
    rw [hlast, Int.toNat_of_nonneg (by split <;> omega)]
    split <;> omega
  refine ⟨new, ?_, by rw [h1, hll], ?_⟩
  · have hnz : ¬∃ x ∈ phi, ‖x‖ = 0 := by
      rintro ⟨x, hx, h0⟩
      exact h.nz x hx (norm_eq_zero.1 h0)
    have := h.few
    rw [arnoldi]
    dsimp only
    rw [if_neg h.some, if_neg hnz, if_neg (by rw [List.length_map]; omega), if_neg (by omega), if_neg (by rw [h.dim]; simp), ← hlast, ← hrem, ← hl, e]
    rfl
  · intro w hw
    have hw' : w < l.length := by omega
    obtain ⟨v, h3, h4, h5⟩ := h2 w hw hw'
    rw [List.nil_append, deflate_without A new hw.le] at h3
    have e2 : new.getD w 0 = new[w] := getD_lt _ hw
    simp only [e2]
    obtain ⟨⟨j, hj, hf, hd⟩, hfull⟩ := h3
    have hfull' : (size : Int) ≤ max 1 o.maxiter + 1 → ‖without A new w new[w].2 - new[w].1 • new[w].2‖ < o.errgoal :=
      fun hm => hfull (by rw [h.dim]; omega)
    refine ⟨⟨v, j, h4, fun hr => ?_, by omega, by omega, hf, ?_⟩, hfull'⟩
    · rw [h5 (by rw [hrem]; split <;> omega)]
      simp only [hl, List.getElem_map]
      rw [getD_lt _ (by omega)]
    · rcases hd with hd | hd
      · exact Or.inl hd
      · by_cases hm : (size : Int) ≤ max 1 o.maxiter + 1
        · exact Or.inl (hfull' hm)
        · right; omega

theorem without_zero (A : E → E) (out : List (ℂ × E)) : without A out 0 = A := by
  funext x; simp [without]

theorem found_val {B : E → E} {w : Which} {v : E} {j : Nat} {lam : ℂ} {x : E} (h : Found B w v j lam x) : inner ℂ x (B x) = lam := by
  have := h.ritz.2.2 x h.ritz.1
  rw [inner_sub_right, inner_smul_right, inner_self_eq_norm_sq_to_K, h.norm, sub_eq_zero] at this
  rw [this]; simp

/-- **C77, one vector.** The value is the expectation value in the normalized vector; with enough iterations they are an eigenpair up to `ErrGoal`, and no
eigenvector in the space searched has a better value. -/
theorem C77_one_partial {A : E → E} {size : Nat} {eigen : Nat → (Nat → Nat → ℂ) → CEig} {o : Opts} {x : E} (h : Given A size eigen o [x]) (hs : 2 ≤ size)
    (rnd : Nat → E) :
    ∃ lam z, arnoldi A size eigen rnd o [x] = .ok [(lam, z)] ∧ ‖z‖ = 1 ∧ inner ℂ z (A z) = lam ∧
      ((size : Int) ≤ max 1 o.maxiter + 1 → ‖A z - lam • z‖ < o.errgoal) ∧
      (o.maxrestart ≤ 0 → ∀ mu, A x = mu • x → lam = mu) ∧
      (o.maxrestart ≤ 0 → 1 ≤ o.maxiter → (‖A z - lam • z‖ < o.errgoal ∨ ∀ mu u, u ≠ 0 → A u = mu • u → (∃ a b : ℂ, u = a • x + b • A x) → Extreme o.which lam mu)) := by
  obtain ⟨out, e, hl, H⟩ := C77_pairs_partial h hs rnd
  obtain ⟨p, rfl⟩ : ∃ p, out = [p] := List.length_eq_one_iff.1 (by rw [hl]; rfl)
  obtain ⟨⟨v, j, hv, hv', hj, hj', hf, hd⟩, h2⟩ := H 0 (by simp)
  simp only [without_zero, List.getD_cons_zero] at hf hd h2 hv'
  have hx : ‖x‖ ≠ 0 := norm_ne_zero_iff.2 (h.nz x (by simp))
  have hc : ((1 / ‖x‖ : ℝ) : ℂ) ≠ 0 := by
    rw [Complex.ofReal_ne_zero]; exact one_div_ne_zero hx
  refine ⟨p.1, p.2, e, hf.norm, found_val hf, h2, fun hr mu hmu => ?_, fun hr hm => ?_⟩
  · have hv := hv' hr
    have hsub : Kry A v j ≤ Submodule.span ℂ {x} := by
      refine Submodule.span_le.2 ?_
      rintro y ⟨i, _, rfl⟩
      have key : ∀ i, ∃ c : ℂ, A^[i] v = c • x := by
        intro i
        induction i with
        | zero => exact ⟨_, hv⟩
        | succ i ih =>
          obtain ⟨c, hc⟩ := ih
          exact ⟨c * mu, by rw [Function.iterate_succ_apply', hc, h.lin.map_smul, hmu, smul_smul]⟩
      obtain ⟨c, hc⟩ := key i
      rw [hc]
      exact Submodule.smul_mem _ _ (Submodule.mem_span_singleton_self x)
    obtain ⟨c, hc⟩ := Submodule.mem_span_singleton.1 (hsub hf.ritz.1)
    rw [← found_val hf, ← hc, h.lin.map_smul, hmu, smul_comm, inner_smul_right, hc, inner_self_eq_norm_sq_to_K, hf.norm]
    simp
  · rcases hd with hd | hd
    · exact Or.inl hd
    · right
      intro mu u hu hAu ⟨a, b, hab⟩
      refine hf.ext mu u ⟨?_, hu, ?_⟩
      · have hv := hv' hr
        have h0 : v ∈ Kry A v j := Submodule.subset_span ⟨0, by omega, rfl⟩
        have h1 : A v ∈ Kry A v j := Submodule.subset_span ⟨1, by omega, rfl⟩
        have hxv : x = ((‖x‖ : ℝ) : ℂ) • v := by
          rw [hv, smul_smul, ← Complex.ofReal_mul, mul_one_div_cancel hx, Complex.ofReal_one, one_smul]
        rw [hab, hxv, h.lin.map_smul]
        exact Submodule.add_mem _ (Submodule.smul_mem _ _ (Submodule.smul_mem _ _ h0)) (Submodule.smul_mem _ _ (Submodule.smul_mem _ _ h1))
      · intro z _
        rw [hAu, sub_self, inner_zero_right]

/-! ### Two vectors of a normal operator -/

theorem normal_norm {A A' : E → E} (hadj : ∀ x y, inner ℂ (A' x) y = inner ℂ x (A y)) (hn : ∀ x, A (A' x) = A' (A x))
    (l : ℂ) (z : E) : ‖A' z - (starRingEnd ℂ) l • z‖ = ‖A z - l • z‖ := by
  have hadj' : ∀ x y, inner ℂ x (A' y) = inner ℂ (A x) y := fun x y => by
    rw [← inner_conj_symm, hadj, inner_conj_symm]
  have e : inner ℂ (A' z - (starRingEnd ℂ) l • z) (A' z - (starRingEnd ℂ) l • z) = inner ℂ (A z - l • z) (A z - l • z) := by
    have k1 : inner ℂ (A' z) (A' z) = inner ℂ (A z) (A z) := by rw [hadj, hn, hadj']
    simp only [inner_sub_left, inner_sub_right, inner_smul_left, inner_smul_right, k1, hadj z z, hadj' z z, Complex.conj_conj]
    ring
  rw [inner_self_eq_norm_sq_to_K, inner_self_eq_norm_sq_to_K] at e
  have e' : ‖A' z - (starRingEnd ℂ) l • z‖ ^ 2 = ‖A z - l • z‖ ^ 2 := Complex.ofReal_injective (by rw [Complex.ofReal_pow, Complex.ofReal_pow]; exact e)
  exact (pow_left_inj₀ (norm_nonneg _) (norm_nonneg _) two_ne_zero).1 e'

/-- **C77, two vectors.** If `A` is normal and there are enough iterations, the second pair is an eigenpair of `A` and orthogonal to the first, up to errors
proportional to `ErrGoal` which grow with `1/|λ₂|`. -/
theorem C77_second_partial {A A' : E → E} {size : Nat} {eigen : Nat → (Nat → Nat → ℂ) → CEig} {o : Opts} {x y : E} (h : Given A size eigen o [x, y])
    (hadj : ∀ x y, inner ℂ (A' x) y = inner ℂ x (A y)) (hn : ∀ x, A (A' x) = A' (A x))
    (hm : (size : Int) ≤ max 1 o.maxiter + 1) (rnd : Nat → E) :
    ∃ l0 z0 l1 z1, arnoldi A size eigen rnd o [x, y] = .ok [(l0, z0), (l1, z1)] ∧ ‖z0‖ = 1 ∧ ‖z1‖ = 1 ∧ ‖A z0 - l0 • z0‖ < o.errgoal ∧
      ‖l1‖ * ‖inner ℂ z0 z1‖ ≤ 2 * o.errgoal ∧ ‖l1‖ * ‖A z1 - l1 • z1‖ ≤ o.errgoal * (‖l1‖ + 2 * ‖l0‖) := by
  obtain ⟨out, e, hl, H⟩ := C77_pairs_partial h (by have := h.few; simpa using this) rnd
  obtain ⟨p, q, rfl⟩ : ∃ p q, out = [p, q] := List.length_eq_two.1 (by rw [hl]; rfl)
  obtain ⟨⟨_, _, _, _, _, _, hf, _⟩, h2⟩ := H 0 (by simp)
  obtain ⟨⟨_, _, _, _, _, _, hf', _⟩, h2'⟩ := H 1 (by simp)
  simp only [without_zero, List.getD_cons_zero] at hf h2
  have hB : ∀ x, without A [p, q] 1 x = A x - (p.1 * inner ℂ p.2 x) • p.2 := by intro x; simp [without]
  have h0 := h2 hm
  have h1 := h2' hm
  simp only [hB, List.getD_cons_zero, List.getD_cons_succ] at h1
  have n0 := hf.norm
  have n1 := hf'.norm
  simp only [List.getD_cons_zero, List.getD_cons_succ] at n1
  set rho := A q.2 - (p.1 * inner ℂ p.2 q.2) • p.2 - q.1 • q.2 with hrho
  set s0 := A' p.2 - (starRingEnd ℂ) p.1 • p.2 with hs0
  have hs : ‖s0‖ < o.errgoal := by rw [hs0, normal_norm hadj hn]; exact h0
  have key : q.1 * inner ℂ p.2 q.2 = inner ℂ s0 q.2 - inner ℂ p.2 rho := by
    rw [hrho, hs0, inner_sub_left, inner_sub_right, inner_sub_right, hadj, inner_smul_left, inner_smul_right, inner_smul_right, inner_self_eq_norm_sq_to_K, n0,
      Complex.conj_conj]
    simp
  have b1 : ‖q.1‖ * ‖inner ℂ p.2 q.2‖ ≤ 2 * o.errgoal := by
    rw [← norm_mul, key]
    refine (norm_sub_le _ _).trans ?_
    have c1 := norm_inner_le_norm (𝕜 := ℂ) s0 q.2
    have c2 := norm_inner_le_norm (𝕜 := ℂ) p.2 rho
    rw [n1, mul_one] at c1
    rw [n0, one_mul] at c2
    linarith
  refine ⟨p.1, p.2, q.1, q.2, e, n0, n1, h0, b1, ?_⟩
  have d : A q.2 - q.1 • q.2 = rho + (p.1 * inner ℂ p.2 q.2) • p.2 := by rw [hrho]; abel
  have d' : ‖A q.2 - q.1 • q.2‖ ≤ o.errgoal + ‖p.1‖ * ‖inner ℂ p.2 q.2‖ := by
    rw [d]
    refine (norm_add_le _ _).trans ?_
    rw [norm_smul, n0, mul_one, norm_mul]
    linarith
  have n2 := norm_nonneg q.1
  have n3 := norm_nonneg p.1
  have m1 := mul_le_mul_of_nonneg_left d' n2
  have m2 := mul_le_mul_of_nonneg_left b1 n3
  linarith

/-! ### Where it fails -/

/-- Vectors with two elements. -/
abbrev C2 := EuclideanSpace ℂ (Fin 2)

/-- The operator with matrix `[[a,b],[c,d]]`. -/
def op (a b c d : ℂ) (x : C2) : C2 := !₂[a * x 0 + b * x 1, c * x 0 + d * x 1]

theorem op_lin (a b c d : ℂ) : IsLinearMap ℂ (op a b c d) := by
  refine ⟨fun x y => ?_, fun k x => ?_⟩ <;> (ext i; fin_cases i <;> simp [op] <;> ring)

theorem inner2 (x y : C2) : inner ℂ x y = (starRingEnd ℂ) (x 0) * y 0 + (starRingEnd ℂ) (x 1) * y 1 := by
  rw [PiLp.inner_apply, Fin.sum_univ_two]; simp [mul_comm]

theorem norm2 (x : C2) : ‖x‖ ^ 2 = ‖x 0‖ ^ 2 + ‖x 1‖ ^ 2 := by
  rw [EuclideanSpace.norm_sq_eq, Fin.sum_univ_two]

theorem norm_e0 : ‖(!₂[1, 0] : C2)‖ = 1 := by
  have := norm2 !₂[1, 0]
  simp at this
  exact this.resolve_right (by have := norm_nonneg (!₂[1, 0] : C2); linarith)

theorem norm_e1 : ‖(!₂[0, 1] : C2)‖ = 1 := by
  have := norm2 !₂[0, 1]
  simp at this
  exact this.resolve_right (by have := norm_nonneg (!₂[0, 1] : C2); linarith)

/-- The options of the examples. -/
def exO (w : Which) : Opts := ⟨10, 0, w, 1 / 10 ^ 6, 1⟩

theorem given2 {eigen : Nat → (Nat → Nat → ℂ) → CEig} (he : EigenOK eigen) {w : Which} (hw : w ≠ .other) (a b c d : ℂ) (phi : List C2) (h1 : phi ≠ [])
    (h2 : ∀ x ∈ phi, x ≠ 0) (h3 : phi.length ≤ 2) : Given (op a b c d) 2 eigen (exO w) phi where
  lin := op_lin a b c d
  eig := he
  dim := by simp
  which := hw
  goal := by simp [exO]
  some := h1
  nz := h2
  few := h3

theorem kry_line {B : E → E} (hB : IsLinearMap ℂ B) {v : E} {mu : ℂ} (h : B v = mu • v) (j : Nat) : Kry B v j ≤ Submodule.span ℂ {v} := by
  refine Submodule.span_le.2 ?_
  rintro y ⟨i, _, rfl⟩
  have key : ∀ i, ∃ c : ℂ, B^[i] v = c • v := by
    intro i
    induction i with
    | zero => exact ⟨1, by simp⟩
    | succ i ih =>
      obtain ⟨c, hc⟩ := ih
      exact ⟨c * mu, by rw [Function.iterate_succ_apply', hc, hB.map_smul, h, smul_smul]⟩
  obtain ⟨c, hc⟩ := key i
  rw [hc]
  exact Submodule.smul_mem _ _ (Submodule.mem_span_singleton_self v)

theorem kry_zero (B : E → E) (v : E) : Kry B v 0 ≤ Submodule.span ℂ {v} := by
  refine Submodule.span_le.2 ?_
  rintro y ⟨i, hi, rfl⟩
  obtain rfl : i = 0 := by omega
  exact Submodule.mem_span_singleton_self v

theorem kry_all {B : E → E} {v : E} {j : Nat} (hj : 1 ≤ j) (h : ∀ u, ∃ a b : ℂ, u = a • v + b • B v) (u : E) : u ∈ Kry B v j := by
  obtain ⟨a, b, rfl⟩ := h u
  exact Submodule.add_mem _ (Submodule.smul_mem _ _ (Submodule.subset_span ⟨0, by omega, rfl⟩)) (Submodule.smul_mem _ _ (Submodule.subset_span ⟨1, hj, rfl⟩))

theorem found_eig {B : E → E} {w : Which} {v : E} {j : Nat} {lam : ℂ} {z : E} (hf : Found B w v j lam z) (hj : 1 ≤ j) (h : ∀ u, ∃ a b : ℂ, u = a • v + b • B v) :
    B z = lam • z ∧ ∀ mu u, u ≠ 0 → B u = mu • u → Extreme w lam mu := by
  refine ⟨?_, fun mu u hu e => hf.ext mu u ⟨kry_all hj h u, hu, fun z _ => by rw [e, sub_self, inner_zero_right]⟩⟩
  have := hf.ritz.2.2 _ (kry_all hj h (B z - lam • z))
  exact sub_eq_zero.1 (inner_self_eq_zero.1 this)

/-- The two pairs which come from the starts `e₀` and `y` if `e₀` is an eigenvector: the second comes from the operator without its first column. -/
theorem two_pairs {eigen : Nat → (Nat → Nat → ℂ) → CEig} (he : EigenOK eigen) {w : Which} (hw : w ≠ .other) (a b d : ℂ) {y : C2} (hy : y ≠ 0) (rnd : Nat → C2) :
    ∃ z0 l1 z1 j, ∃ k : ℂ, arnoldi (op a b 0 d) 2 eigen rnd (exO w) [!₂[1, 0], y] = .ok [(a, z0), (l1, z1)] ∧ z0 = k • !₂[1, 0] ∧ ‖k‖ = 1 ∧
      Found (op 0 b 0 d) w (((1 / ‖y‖ : ℝ) : ℂ) • y) j l1 z1 ∧ ‖op 0 b 0 d z1 - l1 • z1‖ < 1 / 10 ^ 6 := by
  have hne : (!₂[1, 0] : C2) ≠ 0 := fun h0 => by have := norm_e0; rw [h0, norm_zero] at this; exact zero_ne_one this
  have G := given2 he hw a b 0 d [!₂[1, 0], y] (by simp) (by intro x hx; simp only [List.mem_cons, List.not_mem_nil, or_false] at hx; rcases hx with rfl | rfl <;> assumption) (by simp)
  obtain ⟨out, e, hl, H⟩ := C77_pairs_partial G le_rfl rnd
  obtain ⟨p, q, rfl⟩ : ∃ p q, out = [p, q] := List.length_eq_two.1 (by rw [hl]; rfl)
  obtain ⟨⟨v, j, hv, hv', _, _, hf, _⟩, h2⟩ := H 0 (by simp)
  obtain ⟨⟨u, i, _, hu', _, _, hf', _⟩, h2'⟩ := H 1 (by simp)
  have hu := hu' (by simp [exO])
  have hv := hv' (by simp [exO])
  have h1 := h2' (by simp [exO])
  simp only [List.getD_cons_zero, List.getD_cons_succ] at hu hv hf hf' h1
  rw [norm_e0] at hv
  simp only [without_zero] at hf
  have hv : v = !₂[1, 0] := by rw [hv]; simp
  subst hv
  have hA : op a b 0 d !₂[1, 0] = a • !₂[1, 0] := by ext i; fin_cases i <;> simp [op]
  obtain ⟨k, hk⟩ := Submodule.mem_span_singleton.1 (kry_line (op_lin a b 0 d) hA j hf.ritz.1)
  have hk1 : ‖k‖ = 1 := by have := hf.norm; rwa [← hk, norm_smul, norm_e0, mul_one] at this
  have hp : p.1 = a := by
    rw [← found_val hf, ← hk, (op_lin a b 0 d).map_smul, hA, smul_comm, inner_smul_right, inner_self_eq_norm_sq_to_K, norm_smul, norm_e0, hk1]
    simp
  have hkk : (starRingEnd ℂ) k * k = 1 := by rw [Complex.conj_mul', hk1]; simp
  have hB : without (op a b 0 d) [p, q] 1 = op 0 b 0 d := by
    funext x
    have : without (op a b 0 d) [p, q] 1 x = op a b 0 d x - (p.1 * inner ℂ p.2 x) • p.2 := by simp [without]
    rw [this, hp, ← hk, inner2]
    ext i
    fin_cases i
    · simp only [op, PiLp.sub_apply, PiLp.smul_apply, smul_eq_mul]
      simp
      linear_combination (-a * x 0) * hkk
    · simp [op]
  rw [hB, hu] at hf'
  rw [hB] at h1
  exact ⟨p.2, q.1, q.2, i, k, by rw [e, ← hp], hk.symm, hk1, hf', by simpa [exO] using h1⟩

/-- **C77 fails for a second vector of an operator which is not normal.** With `A = [[2,1],[0,1]]` and the starts `(1,0)`, `(0,1)`, whatever correct `eigen` is
used, the second vector is not an eigenvector of `A`: `arnoldi` subtracts `λ|φ⟩⟨φ|` although the left eigenvector is not the conjugate of the right one. -/
theorem C77_deflation_counterexample {eigen : Nat → (Nat → Nat → ℂ) → CEig} (he : EigenOK eigen) (rnd : Nat → C2) :
    ∃ z0 l1 z1, arnoldi (op 2 1 0 1) 2 eigen rnd (exO .largestMagnitude) [!₂[1, 0], !₂[0, 1]] = .ok [(2, z0), (l1, z1)] ∧ ‖z1‖ = 1 ∧ ∀ mu : ℂ, op 2 1 0 1 z1 ≠ mu • z1 := by
  have hne : (!₂[0, 1] : C2) ≠ 0 := fun h0 => by have := norm_e1; rw [h0, norm_zero] at this; exact zero_ne_one this
  obtain ⟨z0, l, z, j, k, e, _, _, hf, hr⟩ := two_pairs he (w := .largestMagnitude) (by simp) 2 1 1 hne rnd
  rw [norm_e1] at hf
  simp only [div_one, Complex.ofReal_one, one_smul] at hf
  refine ⟨z0, l, z, e, hf.norm, ?_⟩
  have hj : 1 ≤ j := by
    by_contra hj
    obtain rfl : j = 0 := by omega
    obtain ⟨c, hc⟩ := Submodule.mem_span_singleton.1 (kry_zero _ _ hf.ritz.1)
    have hc1 : ‖c‖ = 1 := by have := hf.norm; rwa [← hc, norm_smul, norm_e1, mul_one] at this
    have hz0 : z 0 = 0 := by rw [← hc]; simp
    have hz1 : z 1 = c := by rw [← hc]; simp
    have := norm2 (op 0 1 0 1 z - l • z)
    have h0 : (op 0 1 0 1 z - l • z) 0 = c := by simp [op, hz0, hz1]
    rw [h0, hc1] at this
    have h1 := norm_nonneg (op 0 1 0 1 z - l • z)
    have h2 := norm_nonneg ((op 0 1 0 1 z - l • z) 1)
    nlinarith
  obtain ⟨h1, h2⟩ := found_eig hf hj (fun u => ⟨u 1 - u 0, u 0, by ext i; fin_cases i <;> simp [op]⟩)
  have h3 := h2 1 !₂[1, 1] (fun h0 => by have := congrFun (congrArg (fun x : C2 => (x : Fin 2 → ℂ)) h0) 0; simp at this) (by ext i; fin_cases i <;> simp [op])
  simp only [Extreme, norm_one] at h3
  have hl : l ≠ 0 := fun h0 => by rw [h0, norm_zero] at h3; linarith
  have e0 : z 1 = l * z 0 := by have := congrArg (fun x : C2 => x 0) h1; simpa [op] using this
  have e1 : z 1 = l * z 1 := by have := congrArg (fun x : C2 => x 1) h1; simpa [op] using this
  have hz : z 1 ≠ 0 := by
    intro h0
    have h0' : z 0 = 0 := by
      rw [h0] at e0
      exact (mul_eq_zero.1 e0.symm).resolve_left hl
    have := norm2 z
    rw [h0, h0', hf.norm] at this
    simp at this
  have hl1 : l = 1 := by
    have : (l - 1) * z 1 = 0 := by linear_combination -e1
    exact sub_eq_zero.1 ((mul_eq_zero.1 this).resolve_right hz)
  rw [hl1, one_mul] at e0
  intro mu hmu
  have m0 : 2 * z 0 + z 1 = mu * z 0 := by have := congrArg (fun x : C2 => x 0) hmu; simpa [op] using this
  have m1 : z 1 = mu * z 1 := by have := congrArg (fun x : C2 => x 1) hmu; simpa [op] using this
  rw [← e0] at m0
  have : (2 : ℂ) * z 1 = 0 := by linear_combination m0 - m1
  simp [hz] at this

/-- **C77 fails for a second vector with `SmallestReal`.** With `A = diag(1,2)` and the starts `(1,0)`, `(1,1)` the second value is `0` although the eigenvalues
are `1` and `2`, and the second vector is the first one again: the pair removed reappears with the value zero. -/
theorem C77_smallest_counterexample {eigen : Nat → (Nat → Nat → ℂ) → CEig} (he : EigenOK eigen) (rnd : Nat → C2) :
    (∃ z0 z1, ∃ c : ℂ, arnoldi (op 1 0 0 2) 2 eigen rnd (exO .smallestReal) [!₂[1, 0], !₂[1, 1]] = .ok [(1, z0), (0, z1)] ∧ ‖z1‖ = 1 ∧ z1 = c • z0) ∧
      ∀ u : C2, u ≠ 0 → op 1 0 0 2 u ≠ (0 : ℂ) • u := by
  have hne : (!₂[1, 1] : C2) ≠ 0 := fun h0 => by have := congrFun (congrArg (fun x : C2 => (x : Fin 2 → ℂ)) h0) 0; simp at this
  obtain ⟨z0, l, z, j, k, e, hz0, hk, hf, hr⟩ := two_pairs he (w := .smallestReal) (by simp) 1 0 2 hne rnd
  set t : ℂ := ((1 / ‖(!₂[1, 1] : C2)‖ : ℝ) : ℂ) with ht
  have htn : t ≠ 0 := by rw [ht, Complex.ofReal_ne_zero]; exact one_div_ne_zero (norm_ne_zero_iff.2 hne)
  have hkn : k ≠ 0 := fun h0 => by rw [h0, norm_zero] at hk; exact zero_ne_one hk
  have hj : 1 ≤ j := by
    by_contra hj
    obtain rfl : j = 0 := by omega
    obtain ⟨c, hc⟩ := Submodule.mem_span_singleton.1 (kry_zero _ _ hf.ritz.1)
    have hzz : z 0 = z 1 := by rw [← hc]; simp
    have hn := norm2 z
    rw [hf.norm, hzz] at hn
    have hl : l = 1 := by
      rw [← found_val hf, inner2]
      simp only [op, PiLp.toLp_apply, Matrix.cons_val_zero, Matrix.cons_val_one, zero_mul, add_zero, mul_zero, zero_add]
      have : (starRingEnd ℂ) (z 1) * z 1 = ((‖z 1‖ ^ 2 : ℝ) : ℂ) := by rw [Complex.conj_mul']; simp
      rw [show (starRingEnd ℂ) (z 1) * (2 * z 1) = 2 * ((starRingEnd ℂ) (z 1) * z 1) by ring, this, show ‖z 1‖ ^ 2 = 1 / 2 by linarith]
      simp
    have := norm2 (op 0 0 0 2 z - l • z)
    have h0 : (op 0 0 0 2 z - l • z) 0 = -z 1 := by simp [op, hl, hzz]
    rw [h0, norm_neg] at this
    have h1 := norm_nonneg (op 0 0 0 2 z - l • z)
    have h2 := sq_nonneg ‖(op 0 0 0 2 z - l • z) 1‖
    nlinarith
  obtain ⟨h1, h2⟩ := found_eig hf hj (fun u => ⟨u 0 / t, (u 1 - u 0) / (2 * t), by ext i; fin_cases i <;> simp [op] <;> field_simp <;> ring⟩)
  have h3 := h2 0 !₂[1, 0] (fun h0 => by have := congrFun (congrArg (fun x : C2 => (x : Fin 2 → ℂ)) h0) 0; simp at this) (by ext i; fin_cases i <;> simp [op])
  simp only [Extreme, Complex.zero_re] at h3
  have e0 : 0 = l * z 0 := by have := congrArg (fun x : C2 => x 0) h1; simpa [op] using this
  have e1 : 2 * z 1 = l * z 1 := by have := congrArg (fun x : C2 => x 1) h1; simpa [op] using this
  have hz1 : z 1 = 0 := by
    by_contra h0
    have : (2 - l) * z 1 = 0 := by linear_combination e1
    have : l = 2 := (sub_eq_zero.1 ((mul_eq_zero.1 this).resolve_right h0)).symm
    rw [this] at h3
    norm_num at h3
  have hzn : z 0 ≠ 0 := by
    intro h0
    have := norm2 z
    rw [h0, hz1, hf.norm] at this
    simp at this
  have hl0 : l = 0 := (mul_eq_zero.1 e0.symm).resolve_right hzn
  refine ⟨⟨z0, z, z 0 / k, by rw [e, hl0], hf.norm, ?_⟩, fun u hu h0 => hu ?_⟩
  · rw [hz0, smul_smul, div_mul_cancel₀ _ hkn]
    ext i; fin_cases i <;> simp [hz1]
  · have m0 := congrArg (fun x : C2 => x 0) h0
    have m1 := congrArg (fun x : C2 => x 1) h0
    simp [op] at m0 m1
    ext i; fin_cases i <;> simp [m0, m1]

/-- **C77 fails in one dimension.** There the value returned is the complex conjugate of the eigenvalue: for the operator which multiplies by `i` it is `-i`. -/
theorem C77_one_dim_counterexample (eigen : Nat → (Nat → Nat → ℂ) → CEig) (rnd : Nat → ℂ) :
    arnoldi (fun x : ℂ => Complex.I * x) 1 eigen rnd (exO .largestMagnitude) [1] = .ok [(-Complex.I, 1)] ∧ ∀ x : ℂ, x ≠ 0 → Complex.I * x ≠ -Complex.I * x := by
  refine ⟨?_, fun x hx h => ?_⟩
  · simp [arnoldi]
  · have : Complex.I * x = 0 := by linear_combination h / 2
    simp [hx] at this

/-! ### Cases which meet the hypotheses -/

example : ∃ eigen, Given (op 2 1 0 1) 2 eigen (exO .largestMagnitude) [!₂[1, 1]] := by
  obtain ⟨eigen, he⟩ := exists_eigen
  exact ⟨eigen, given2 he (by simp) _ _ _ _ _ (by simp)
    (by intro x hx h0; rw [List.mem_singleton.1 hx] at h0; have := congrFun (congrArg (fun x : C2 => (x : Fin 2 → ℂ)) h0) 0; simp at this) (by simp)⟩

example : (∀ x y : C2, inner ℂ (op 1 0 0 2 x) y = inner ℂ x (op 1 0 0 2 y)) ∧ ((2 : Nat) : Int) ≤ max 1 (exO .largestMagnitude).maxiter + 1 := by
  refine ⟨fun x y => ?_, by simp [exO]⟩
  have h2 : (starRingEnd ℂ) 2 = 2 := Complex.conj_ofNat 2
  rw [inner2, inner2]; simp [op, h2]; ring

end Verif.Arnoldi
