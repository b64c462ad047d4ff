import Verif.Solvers.DavidsonProps
import Mathlib.Analysis.InnerProductSpace.PiL2
import Mathlib.Analysis.Matrix.Spectrum

/-!
# The Davidson eigensolver lowers the energy

The theorems for C69, and the cases in which asking for several states goes wrong.
-/

noncomputable section

namespace Verif.Solvers

open scoped BigOperators
open Finset (range)

variable {𝕜 E : Type*} [RCLike 𝕜] [NormedAddCommGroup E] [InnerProductSpace 𝕜 E]

/-- A vector divided by its norm. -/
def unit (𝕜 : Type*) {E : Type*} [RCLike 𝕜] [NormedAddCommGroup E] [InnerProductSpace 𝕜 E] (x : E) : E := ((1 / ‖x‖ : ℝ) : 𝕜) • x

theorem norm_unit {x : E} (h : x ≠ 0) : ‖unit 𝕜 x‖ = 1 := norm_scaled (norm_ne_zero_iff.2 h)

/-- The energy of a vector. -/
def energy (𝕜 : Type*) {E : Type*} [RCLike 𝕜] [NormedAddCommGroup E] [InnerProductSpace 𝕜 E] (A : E → E) (x : E) : ℝ := RCLike.re (inner 𝕜 x (A x)) / ‖x‖ ^ 2

theorem energy_unit (A : E →ₗ[𝕜] E) (x : E) : RCLike.re (inner 𝕜 (unit 𝕜 x) (A (unit 𝕜 x))) = energy 𝕜 A x := by
  unfold unit energy
  rw [map_smul, inner_smul_left, inner_smul_right, RCLike.conj_ofReal, ← mul_assoc, ← RCLike.ofReal_mul, RCLike.re_ofReal_mul]
  ring

theorem initVec_ok {rnd : Nat → E} (hr : ∀ n, rnd n ≠ 0) {fuel : Nat} (hf : 2 ≤ fuel) (x : E) (nr : Nat) :
    ∃ y nr', initVec (𝕜 := 𝕜) rnd fuel x nr = some (unit 𝕜 y, nr') ∧ y ≠ 0 ∧ (x ≠ 0 → y = x) := by
  obtain ⟨f, rfl⟩ : ∃ f, fuel = f + 2 := ⟨fuel - 2, by omega⟩
  by_cases hx : x = 0
  · subst hx
    refine ⟨rnd nr, nr + 1, ?_, hr nr, fun h => absurd rfl h⟩
    rw [initVec, if_pos (by simp), initVec, if_neg (by simpa using hr nr)]
    rfl
  · refine ⟨x, nr, ?_, hx, fun _ => rfl⟩
    rw [initVec, if_neg (by simpa using hx)]
    rfl

theorem initAll_ok {rnd : Nat → E} (hr : ∀ n, rnd n ≠ 0) {fuel : Nat} (hf : 2 ≤ fuel) (xs : List E) (nr : Nat) :
    ∃ ys nr', initAll (𝕜 := 𝕜) rnd fuel xs nr = some (ys, nr') ∧ ys.length = xs.length ∧
      ∀ x xs', xs = x :: xs' → ∃ y ys', ys = unit 𝕜 y :: ys' ∧ y ≠ 0 ∧ (x ≠ 0 → y = x) := by
  induction xs generalizing nr with
  | nil => exact ⟨[], nr, rfl, rfl, by intro x xs' h; cases h⟩
  | cons x xs ih =>
    obtain ⟨y, nr1, e1, h1, h2⟩ := initVec_ok (𝕜 := 𝕜) hr hf x nr
    obtain ⟨ys, nr2, e2, h3, -⟩ := ih nr1
    refine ⟨unit 𝕜 y :: ys, nr2, ?_, by simp [h3], ?_⟩
    · rw [initAll, e1, Option.bind_some, e2, Option.bind_some]
    · intro x' xs' h
      injection h with h _
      subst h
      exact ⟨y, ys, rfl, h1, h2⟩

/-- How many iterations after the first one are allowed. -/
def actIter (o : DOpts) (maxsize : Nat) : Nat := if maxsize = 0 then o.maxiter else min o.maxiter (maxsize - 1)

/-- The loop as it is started satisfies its claim. -/
theorem start_inv {A : E →ₗ[𝕜] E} {P : Prop} {y : E} (hy : y ≠ 0) (ys : List E) (junk : Nat → Nat → 𝕜) (nr : Nat) :
    DInv A P (unit 𝕜 y) (ys.length + 1) 0
      (⟨[unit 𝕜 y], [A (unit 𝕜 y)], junk, unit 𝕜 y :: ys, List.replicate (ys.length + 1) none, 0, 1000, none, nr⟩ : DSt 𝕜 E) := by
  constructor
  · rfl
  · rfl
  · intro i hi j hj
    simp only [List.length_singleton] at hi hj
    obtain rfl : i = 0 := by omega
    obtain rfl : j = 0 := by omega
    rw [if_pos rfl, inner_self_eq_norm_sq_to_K]
    simp [norm_unit hy]
  · rfl
  · intro h; omega
  · exact Nat.le_refl 0
  · exact Nat.succ_pos _
  · rfl
  · simp
  · intro j hj; exact absurd hj (Nat.not_lt_zero _)
  · intro j _ hj; simp [List.getElem?_replicate, hj]
  · intro _; rfl
  · intro h; omega
  · intro n e h; cases h

/-- What holds of the values and vectors returned. -/
structure Returned (A : E →ₗ[𝕜] E) (P : Prop) (v : E) (nget : Nat) (eigs : List (Option ℝ)) (phi : List E) : Prop where
  le : eigs.length = nget
  lp : phi.length = nget
  first : Has A P v eigs phi 0
  all : ∀ (j : Nat) (l : ℝ), eigs[j]? = some (some l) → ∃ x, phi[j]? = some x ∧ Good A l x

theorem remaining_ok {A : E →ₗ[𝕜] E} {P : Prop} {v : E} {nget B : Nat} (js : List Nat) : ∀ {s : DSt 𝕜 E}, LastOK A s.V B s.last → Returned A P v nget s.eigs s.phi → (∀ j ∈ js, 0 < j) →
    remaining s js = .ub ∨ ∃ s', remaining s js = .ok s' ∧ Returned A P v nget s'.eigs s'.phi := by
  induction js with
  | nil => intro s _ h _; exact Or.inr ⟨s, rfl, h⟩
  | cons j js ih =>
    intro s hl h hj
    rw [remaining]
    split
    · exact Or.inl rfl
    · rename_i n e hlast
      obtain ⟨h1, h2, h3, h4⟩ := hl n e hlast
      split
      · rename_i hc
        rw [comb_ok _ _ h1 h2, Res.bind_ok]
        refine ih hl ?_ fun j' hj' => hj j' (List.mem_cons_of_mem _ hj')
        have hj0 : 0 < j := hj j (List.mem_cons_self ..)
        constructor
        · simp [h.le]
        · simp [h.lp]
        · obtain ⟨l, x, e1, e2, e3⟩ := h.first
          refine ⟨l, x, ?_, ?_, e3⟩
          · show (s.eigs.set j _)[0]? = _; rw [List.getElem?_set_ne (by omega), e1]
          · show (s.phi.set j _)[0]? = _; rw [List.getElem?_set_ne (by omega), e2]
        · intro k l hk
          change (s.eigs.set j _)[k]? = _ at hk
          show ∃ x, (s.phi.set j _)[k]? = some x ∧ _
          by_cases hkj : j = k
          · subst hkj
            rw [List.getElem?_set_self hc.2.2] at hk
            injection hk with hk
            injection hk with hk
            subst hk
            exact ⟨_, List.getElem?_set_self hc.2.1, h4 j hc.1⟩
          · rw [List.getElem?_set_ne hkj] at hk ⊢
            exact h.all k l hk
      · exact Or.inl rfl

/-- The loop over the pairs left is undefined as soon as one of them is beyond the last diagonalization. -/
theorem remaining_ub {A : E →ₗ[𝕜] E} {B : Nat} (js : List Nat) : ∀ {s : DSt 𝕜 E}, LastOK A s.V B s.last → (∃ j ∈ js, B + 1 ≤ j) → remaining s js = .ub := by
  induction js with
  | nil => intro s _ h; obtain ⟨j, hj, -⟩ := h; cases hj
  | cons j js ih =>
    intro s hl h
    rw [remaining]
    split
    · rfl
    · rename_i n e hlast
      obtain ⟨h1, h2, h3, h4⟩ := hl n e hlast
      split
      · rename_i hc
        rw [comb_ok _ _ h1 h2, Res.bind_ok]
        refine ih hl ?_
        obtain ⟨k, hk, hk2⟩ := h
        rcases List.mem_cons.1 hk with rfl | hk
        · omega
        · exact ⟨k, hk, hk2⟩
      · rfl

/-- The whole run: the loop, then the pairs left. -/
theorem davidson_run {A : E →ₗ[𝕜] E} (hA : A.IsSymmetric) {diag : Nat → (Nat → Nat → 𝕜) → Eig 𝕜} (hd : DiagOK diag) {rnd : Nat → E} (hr : ∀ n, rnd n ≠ 0)
    {fuel : Nat} (hf : 2 ≤ fuel) (o : DOpts) (maxsize : Nat) (junk : Nat → Nat → 𝕜) (x : E) (xs : List E) :
    ∃ y s, y ≠ 0 ∧ (x ≠ 0 → y = x) ∧ DPost A (Searches A o (actIter o maxsize) (unit 𝕜 y)) (unit 𝕜 y) (xs.length + 1) (actIter o maxsize) s ∧
      davidson A diag rnd fuel o maxsize maxsize junk (x :: xs) =
        some ((remaining s ((List.range (xs.length + 1 - (s.t + 1))).map (· + (s.t + 1)))).bind fun s => .ok (s.eigs, s.phi)) := by
  obtain ⟨ys, nr, e, hlen, hhead⟩ := initAll_ok (𝕜 := 𝕜) hr hf (x :: xs) 0
  obtain ⟨y, ys', rfl, hy, hyx⟩ := hhead x xs rfl
  have hlen' : ys'.length = xs.length := by simpa using hlen
  have hinv := start_inv (A := A) (P := Searches A o (0 + actIter o maxsize) (unit 𝕜 y)) hy ys' junk nr
  obtain ⟨s, es, hs⟩ := davLoop_ok hA hd hr o maxsize (actIter o maxsize) 0 hinv
  rw [hlen'] at es hs
  rw [Nat.zero_add] at hs
  refine ⟨y, s, hy, hyx, hs, ?_⟩
  unfold davidson
  rw [if_neg (by simp), e, Option.bind_some]
  simp only [ne_eq, not_true_eq_false, if_false, List.length_cons]
  congr 1
  unfold actIter at es
  rw [es, Res.bind_ok]

theorem returned_of_post {A : E →ₗ[𝕜] E} {P : Prop} {v : E} {nget B : Nat} {s : DSt 𝕜 E} (h : DPost A P v nget B s) : Returned A P v nget s.eigs s.phi := by
  refine ⟨h.le, h.lp, ?_, ?_⟩
  · rcases Nat.eq_zero_or_pos s.t with h0 | h0
    · rcases h.cur with hc | ⟨hc, -⟩
      · rwa [h0] at hc
      · omega
    · exact h.pairs 0 h0
  · intro j l hj
    have hjn : j < nget := by
      rw [← h.le]
      by_contra hc
      rw [List.getElem?_eq_none (by omega)] at hj
      cases hj
    have key : Has A P v s.eigs s.phi j → ∃ x, s.phi[j]? = some x ∧ Good A l x := by
      rintro ⟨l', x, e1, e2, e3, -⟩
      rw [hj] at e1
      injection e1 with e1
      injection e1 with e1
      subst e1
      exact ⟨x, e2, e3⟩
    rcases Nat.lt_trichotomy j s.t with h1 | h1 | h1
    · exact key (h.pairs j h1)
    · rcases h.cur with hc | ⟨-, hc⟩
      · rw [← h1] at hc; exact key hc
      · rw [← h1, hj] at hc; cases hc
    · rw [h.rest j h1 hjn] at hj; cases hj

/-- If a space contains the product with `v`, a vector which is not an eigenvector does not give the minimum over the space. -/
theorem lt_of_best {A : E →ₗ[𝕜] E} (hA : A.IsSymmetric) {v : E} (hv : ‖v‖ = 1) {l : ℝ} {S : Submodule 𝕜 E} (hvS : v ∈ S) (hAv : A v ∈ S)
    (hmin : ∀ y ∈ S, l * ‖y‖ ^ 2 ≤ RCLike.re (inner 𝕜 y (A y))) (hq : A v - ((RCLike.re (inner 𝕜 v (A v)) : ℝ) : 𝕜) • v ≠ 0) : l < RCLike.re (inner 𝕜 v (A v)) := by
  set E0 := RCLike.re (inner 𝕜 v (A v)) with hE0
  have hre : inner 𝕜 v (A v) = ((E0 : ℝ) : 𝕜) := (hA.coe_re_inner_self_apply v).symm
  set q := A v - (E0 : 𝕜) • v with hqd
  have hvv : inner 𝕜 v v = (1 : 𝕜) := by rw [inner_self_eq_norm_sq_to_K, hv]; simp
  have hqS : q ∈ S := Submodule.sub_mem _ hAv (Submodule.smul_mem _ _ hvS)
  have hvq : inner 𝕜 v q = 0 := by rw [hqd, inner_sub_right, inner_smul_right, hre, hvv, mul_one, sub_self]
  have hqv : inner 𝕜 q v = 0 := by rw [← inner_conj_symm, hvq, map_zero]
  have hAvq : A v = q + (E0 : 𝕜) • v := by rw [hqd]; abel
  have hqAv : inner 𝕜 q (A v) = ((‖q‖ ^ 2 : ℝ) : 𝕜) := by
    rw [hAvq, inner_add_right, inner_smul_right, hqv, mul_zero, add_zero, inner_self_eq_norm_sq_to_K]; push_cast; rfl
  have hvAq : inner 𝕜 v (A q) = ((‖q‖ ^ 2 : ℝ) : 𝕜) := by
    rw [← hA, ← inner_conj_symm, hqAv, RCLike.conj_ofReal]
  set c := RCLike.re (inner 𝕜 q (A q)) with hc
  have hcq : inner 𝕜 q (A q) = ((c : ℝ) : 𝕜) := (hA.coe_re_inner_self_apply q).symm
  by_contra hcon
  have hlE : E0 ≤ l := not_lt.1 hcon
  have hqpos : 0 < ‖q‖ ^ 2 := by have := norm_pos_iff.2 hq; positivity
  have key : ∀ a : ℝ, l * (1 + a ^ 2 * ‖q‖ ^ 2) ≤ E0 + 2 * a * ‖q‖ ^ 2 + a ^ 2 * c := by
    intro a
    have h := hmin (v + (a : 𝕜) • q) (Submodule.add_mem _ hvS (Submodule.smul_mem _ _ hqS))
    have h1 : inner 𝕜 (v + (a : 𝕜) • q) (A (v + (a : 𝕜) • q)) = ((E0 + 2 * a * ‖q‖ ^ 2 + a ^ 2 * c : ℝ) : 𝕜) := by
      rw [map_add, map_smul, inner_add_left, inner_add_right, inner_add_right, inner_smul_left, inner_smul_right, inner_smul_left, inner_smul_right, RCLike.conj_ofReal,
        hre, hvAq, hqAv, hcq]
      push_cast
      ring
    have h2 : ‖v + (a : 𝕜) • q‖ ^ 2 = 1 + a ^ 2 * ‖q‖ ^ 2 := by
      have h3 : ((‖v + (a : 𝕜) • q‖ ^ 2 : ℝ) : 𝕜) = ((1 + a ^ 2 * ‖q‖ ^ 2 : ℝ) : 𝕜) := by
        push_cast
        rw [← inner_self_eq_norm_sq_to_K, inner_add_left, inner_add_right, inner_add_right, inner_smul_left, inner_smul_right, inner_smul_left, inner_smul_right,
          RCLike.conj_ofReal, hvv, hvq, hqv, inner_self_eq_norm_sq_to_K]
        ring
      exact_mod_cast h3
    rwa [h1, h2, RCLike.ofReal_re] at h
  -- choose a small negative `a`
  set K := c - l * ‖q‖ ^ 2 with hK
  have k2 : ∀ a : ℝ, 0 ≤ 2 * a * ‖q‖ ^ 2 + a ^ 2 * K := by
    intro a
    have := key a
    rw [hK]
    nlinarith
  have hKn : 0 < |K| + 1 := by positivity
  have := k2 (-(‖q‖ ^ 2 / (|K| + 1)))
  have h4 : 2 * -(‖q‖ ^ 2 / (|K| + 1)) * ‖q‖ ^ 2 + (-(‖q‖ ^ 2 / (|K| + 1))) ^ 2 * K = (‖q‖ ^ 2) ^ 2 / (|K| + 1) * (K / (|K| + 1) - 2) := by
    field_simp
    ring
  rw [h4] at this
  have h5 : K / (|K| + 1) < 2 := by
    rw [div_lt_iff₀ hKn]
    have := le_abs_self K
    have := abs_nonneg K
    linarith
  have h6 : 0 < (‖q‖ ^ 2) ^ 2 / (|K| + 1) := by positivity
  nlinarith

/-- **C69** (one state). For a Hermitian `A`, a nonzero initial vector and any options, `davidson` returns a normalized vector whose energy is the value returned. The value
is at most the energy of the initial vector, and it is the minimum of the energy over a space containing the initial vector and the result. It is below the initial energy
whenever an iteration is allowed and the initial vector is not within `1E-10` of being an eigenvector. -/
theorem C69_ground {A : E →ₗ[𝕜] E} (hA : A.IsSymmetric) {diag : Nat → (Nat → Nat → 𝕜) → Eig 𝕜} (hd : DiagOK diag) {rnd : Nat → E} (hr : ∀ n, rnd n ≠ 0)
    {fuel : Nat} (hf : 2 ≤ fuel) (o : DOpts) (maxsize : Nat) (junk : Nat → Nat → 𝕜) {x : E} (hx : x ≠ 0) :
    ∃ (l : ℝ) (y : E), davidson A diag rnd fuel o maxsize maxsize junk [x] = some (.ok ([some l], [y])) ∧
      ‖y‖ = 1 ∧ inner 𝕜 y (A y) = (l : 𝕜) ∧ l ≤ energy 𝕜 A x ∧
      (∃ S : Submodule 𝕜 E, x ∈ S ∧ y ∈ S ∧ ∀ z ∈ S, z ≠ 0 → l ≤ energy 𝕜 A z) ∧
      (1 ≤ o.maxiter → maxsize ≠ 1 → 1 ≤ o.miniter → 1 / 10 ^ 10 * ‖x‖ ≤ ‖A x - (energy 𝕜 A x : 𝕜) • x‖ → l < energy 𝕜 A x) := by
  obtain ⟨y, s, hy, hyx, hs, e⟩ := davidson_run hA hd hr hf o maxsize junk x []
  obtain rfl := hyx hx
  have ht : s.t = 0 := by have := hs.tlt; simp at this; exact this
  rw [ht] at e
  simp only [List.length_nil, Nat.zero_add, Nat.sub_self, List.range_zero, List.map_nil, remaining, Res.bind_ok] at e
  obtain ⟨hle, hlp, ⟨l, z, h1, h2, hg, hb⟩, -⟩ := returned_of_post hs
  have e1 : s.eigs = [some l] := by
    obtain ⟨a, ha⟩ := List.length_eq_one_iff.1 hle
    rw [ha] at h1 ⊢; simpa using h1
  have e2 : s.phi = [z] := by
    obtain ⟨a, ha⟩ := List.length_eq_one_iff.1 hlp
    rw [ha] at h2 ⊢; simpa using h2
  rw [e1, e2] at e
  obtain ⟨S, s1, s2, s3, s4⟩ := hb rfl
  have hn : ‖y‖ ≠ 0 := norm_ne_zero_iff.2 hx
  have hyu : y = ((‖y‖ : ℝ) : 𝕜) • unit 𝕜 y := by
    unfold unit
    rw [smul_smul, ← RCLike.ofReal_mul, mul_one_div, div_self hn, RCLike.ofReal_one, one_smul]
  have hmin : ∀ w ∈ S, w ≠ 0 → l ≤ energy 𝕜 A w := by
    intro w hw hw0
    have := s4 w hw
    unfold energy
    rw [le_div_iff₀ (by have := norm_pos_iff.2 hw0; positivity)]
    exact this
  have hyS : y ∈ S := by rw [hyu]; exact Submodule.smul_mem _ _ s1
  refine ⟨l, z, e, hg.norm, hg.val, hmin y hyS hx, ⟨S, hyS, s2, hmin⟩, ?_⟩
  intro c1 c2 c3 c4
  rw [← energy_unit A y]
  have hres : A y - (energy 𝕜 A y : 𝕜) • y = ((‖y‖ : ℝ) : 𝕜) • (A (unit 𝕜 y) - ((RCLike.re (inner 𝕜 (unit 𝕜 y) (A (unit 𝕜 y))) : ℝ) : 𝕜) • unit 𝕜 y) := by
    rw [energy_unit]
    conv_lhs => rw [hyu]
    rw [smul_sub, ← map_smul, smul_comm, ← hyu]
  rw [hres, norm_smul, RCLike.norm_ofReal, abs_norm, mul_comm] at c4
  have c4' := le_of_mul_le_mul_left c4 (norm_pos_iff.2 hx)
  have hact : 1 ≤ actIter o maxsize := by
    unfold actIter
    split
    · exact c1
    · omega
  refine lt_of_best hA (norm_unit hx) s1 (s3 ⟨hact, c3, c4'⟩) s4 ?_
  intro h0
  rw [h0, norm_zero] at c4'
  have : (0 : ℝ) < 1 / 10 ^ 10 := by positivity
  linarith

/-- **C69** (several states, partial). Every value which is returned and is a number is the energy of the normalized vector returned with it; the first one is a number, and at
most the energy of the first initial vector if that is not zero. Missing: some values may not be numbers, and the run may be undefined (see the counterexamples). -/
theorem C69_several_partial {A : E →ₗ[𝕜] E} (hA : A.IsSymmetric) {diag : Nat → (Nat → Nat → 𝕜) → Eig 𝕜} (hd : DiagOK diag) {rnd : Nat → E} (hr : ∀ n, rnd n ≠ 0)
    {fuel : Nat} (hf : 2 ≤ fuel) (o : DOpts) (maxsize : Nat) (junk : Nat → Nat → 𝕜) {x : E} (hx : x ≠ 0) (xs : List E) :
    davidson A diag rnd fuel o maxsize maxsize junk (x :: xs) = some .ub ∨
    ∃ eigs phi, davidson A diag rnd fuel o maxsize maxsize junk (x :: xs) = some (.ok (eigs, phi)) ∧ eigs.length = xs.length + 1 ∧ phi.length = xs.length + 1 ∧
      (∃ l, eigs[0]? = some (some l) ∧ l ≤ energy 𝕜 A x) ∧
      ∀ (j : Nat) (l : ℝ), eigs[j]? = some (some l) → ∃ y, phi[j]? = some y ∧ ‖y‖ = 1 ∧ inner 𝕜 y (A y) = (l : 𝕜) := by
  obtain ⟨y, s, hy, hyx, hs, e⟩ := davidson_run hA hd hr hf o maxsize junk x xs
  obtain rfl := hyx hx
  rw [e]
  rcases remaining_ok ((List.range (xs.length + 1 - (s.t + 1))).map (· + (s.t + 1))) hs.last (returned_of_post hs)
      (by intro j hj; obtain ⟨k, -, rfl⟩ := List.mem_map.1 hj; omega) with h | ⟨s', h, hR⟩
  · left; rw [h]; rfl
  · right
    rw [h, Res.bind_ok]
    refine ⟨_, _, rfl, hR.le, hR.lp, ?_, ?_⟩
    · obtain ⟨l, z, h1, h2, hg, hb⟩ := hR.first
      obtain ⟨S, s1, s2, s3, s4⟩ := hb rfl
      refine ⟨l, h1, ?_⟩
      have := s4 _ s1
      rwa [norm_unit hy, one_pow, mul_one, energy_unit] at this
    · intro j l hj
      obtain ⟨z, h1, h2⟩ := hR.all j l hj
      exact ⟨z, h1, h2.norm, h2.val⟩

/-- **C69** (counterexample). When more states are asked for than there are iterations, `davidson` reads beyond the end of the list of values: the run is undefined for
every matrix and all initial vectors. With the default of two iterations this is so from four states on. -/
theorem C69_targets_counterexample {A : E →ₗ[𝕜] E} (hA : A.IsSymmetric) {diag : Nat → (Nat → Nat → 𝕜) → Eig 𝕜} (hd : DiagOK diag) {rnd : Nat → E} (hr : ∀ n, rnd n ≠ 0)
    {fuel : Nat} (hf : 2 ≤ fuel) (o : DOpts) (maxsize : Nat) (junk : Nat → Nat → 𝕜) (phi : List E) (h : o.maxiter + 2 ≤ phi.length) :
    davidson A diag rnd fuel o maxsize maxsize junk phi = some .ub := by
  cases phi with
  | nil => simp at h
  | cons x xs =>
    simp only [List.length_cons] at h
    obtain ⟨y, s, hy, hyx, hs, e⟩ := davidson_run hA hd hr hf o maxsize junk x xs
    have hact : actIter o maxsize ≤ o.maxiter := by
      unfold actIter
      split
      · exact Nat.le_refl _
      · exact Nat.min_le_left _ _
    have htle := hs.tle
    rw [e, remaining_ub _ hs.last ⟨xs.length, ?_, by omega⟩]
    · rfl
    · exact List.mem_map.2 ⟨xs.length - (s.t + 1), List.mem_range.2 (by omega), by omega⟩

end Verif.Solvers
