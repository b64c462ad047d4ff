import Verif.Solvers.Arnoldi
import Verif.Solvers.DavidsonProps
import Mathlib.Analysis.InnerProductSpace.PiL2

/-!
# Properties of the Arnoldi eigensolver
-/

noncomputable section

namespace Verif.Arnoldi

open scoped BigOperators
open Finset (range)
open Verif.Solvers (lin Ortho linSpan)

variable {E : Type*} [NormedAddCommGroup E] [InnerProductSpace ℂ E]

/-- What `eigen` is documented to return: normalized eigenvectors, and among the values every eigenvalue. -/
structure IsCEig (n : Nat) (M : Nat → Nat → ℂ) (e : CEig) : Prop where
  vec : ∀ i < n, ∀ t < n, ∑ k ∈ range n, M i k * e.Y k t = e.D t * e.Y i t
  unit : ∀ t < n, ∑ k ∈ range n, (starRingEnd ℂ) (e.Y k t) * e.Y k t = 1
  all : ∀ (mu : ℂ) (c : Nat → ℂ), (∃ k < n, c k ≠ 0) → (∀ i < n, ∑ k ∈ range n, M i k * c k = mu * c i) → ∃ t < n, e.D t = mu

/-- `eigen` is right for every matrix. -/
def EigenOK (eigen : Nat → (Nat → Nat → ℂ) → CEig) : Prop := ∀ n M, 0 < n → IsCEig n M (eigen n M)

/-- `x` is a Ritz vector of `B` in `K` with value `mu`. -/
def Ritz (B : E → E) (K : Submodule ℂ E) (mu : ℂ) (x : E) : Prop := x ∈ K ∧ x ≠ 0 ∧ ∀ z ∈ K, inner ℂ z (B x - mu • x) = 0

/-- The span of `v`, `B v`, …, `B^j v`. -/
def Kry (B : E → E) (v : E) (j : Nat) : Submodule ℂ E := Submodule.span ℂ {x | ∃ i ≤ j, x = B^[i] v}

/-- `lam` comes before `mu` or equally. -/
def Extreme (w : Which) (lam mu : ℂ) : Prop :=
  match w with
  | .largestMagnitude => ‖mu‖ ≤ ‖lam‖
  | .smallestReal => lam.re ≤ mu.re
  | .other => False

/-- A normalized Ritz pair of the Krylov space, with the extreme value. -/
structure Found (B : E → E) (w : Which) (v : E) (j : Nat) (lam : ℂ) (x : E) : Prop where
  norm : ‖x‖ = 1
  ritz : Ritz B (Kry B v j) lam x
  ext : ∀ mu z, Ritz B (Kry B v j) mu z → Extreme w lam mu

theorem better_extreme {w : Which} (hw : w ≠ .other) {x y : ℂ} (h : ¬better w x y) : Extreme w y x := by
  cases w <;> simp_all [better, Extreme]

theorem extreme_trans {w : Which} {x y z : ℂ} (h : Extreme w x y) (h' : Extreme w y z) : Extreme w x z := by
  cases w <;> simp only [Extreme] at * <;> linarith

theorem extreme_of_better {w : Which} {x y : ℂ} (h : better w x y) : Extreme w x y := by
  cases w <;> simp only [better, Extreme] at * <;> linarith

theorem extreme_refl {w : Which} (hw : w ≠ .other) (x : ℂ) : Extreme w x x := by
  cases w <;> simp_all [Extreme]

theorem findEig_ok {w : Which} (hw : w ≠ .other) (d : Nat → ℂ) (i : Nat) : ∃ n ≤ i, findEig w d i = .ok n ∧ ∀ k ≤ i, Extreme w (d n) (d k) := by
  induction i with
  | zero => exact ⟨0, le_rfl, by simp [findEig, hw], fun k hk => by rw [Nat.le_zero.1 hk]; exact extreme_refl hw _⟩
  | succ i ih =>
    obtain ⟨n, hn, e, h⟩ := ih
    by_cases hb : better w (d (i + 1)) (d n)
    · refine ⟨i + 1, le_rfl, by simp [findEig, hw, e, hb], fun k hk => ?_⟩
      rcases Nat.lt_or_ge k (i + 1) with hk' | hk'
      · exact extreme_trans (extreme_of_better hb) (h k (by omega))
      · rw [show k = i + 1 by omega]; exact extreme_refl hw _
    · refine ⟨n, by omega, by simp [findEig, hw, e, hb], fun k hk => ?_⟩
      rcases Nat.lt_or_ge k (i + 1) with hk' | hk'
      · exact h k (by omega)
      · rw [show k = i + 1 by omega]; exact better_extreme hw hb

/-! ### The Gram-Schmidt pass -/

theorem getD_lt {α : Type*} {l : List α} {k : Nat} (d : α) (h : k < l.length) : l.getD k d = l[k] := by
  rw [List.getD_eq_getElem?_getD, List.getElem?_eq_getElem h]; rfl

theorem sum_map_getD (V : List E) (f : E → E) : (V.map f).sum = ∑ k ∈ range V.length, f (V.getD k 0) := by
  induction V with
  | nil => simp
  | cons v V ih => rw [List.map_cons, List.sum_cons, ih, List.length_cons, Finset.sum_range_succ']; simp [add_comm]

theorem gs_pairwise (V : List E) (hV : V.Pairwise fun u v => inner ℂ v u = 0) (q : E) :
    gs V q = (q - (V.map fun v => inner ℂ v q • v).sum, V.map fun v => inner ℂ v q) := by
  induction V generalizing q with
  | nil => simp [gs]
  | cons v V ih =>
    obtain ⟨h1, h2⟩ := List.pairwise_cons.1 hV
    have e : ∀ u ∈ V, inner ℂ u (q - inner ℂ v q • v) = inner ℂ u q := by
      intro u hu
      rw [inner_sub_right, inner_smul_right, h1 u hu, mul_zero, sub_zero]
    have e1 : (V.map fun u => inner ℂ u (q - inner ℂ v q • v)) = V.map fun u => inner ℂ u q := List.map_congr_left e
    have e2 : (V.map fun u => inner ℂ u (q - inner ℂ v q • v) • u) = V.map fun u => inner ℂ u q • u :=
      List.map_congr_left fun u hu => by rw [e u hu]
    simp only [gs, ih h2, e1, e2, List.map_cons, List.sum_cons]
    rw [sub_sub]

theorem gs_eq {V : List E} (hV : Ortho ℂ V) (q : E) :
    (gs V q).1 = q - ∑ k ∈ range V.length, inner ℂ (V.getD k 0) q • V.getD k 0 ∧ ∀ k < V.length, (gs V q).2.getD k 0 = inner ℂ (V.getD k 0) q := by
  have hp : V.Pairwise fun u v => inner ℂ v u = 0 := by
    rw [List.pairwise_iff_getElem]
    intro i j hi hj hij
    have := hV j hj i hi
    rw [if_neg (by omega), getD_lt _ hi, getD_lt _ hj] at this
    exact this
  rw [gs_pairwise V hp]
  refine ⟨by dsimp only; rw [sum_map_getD], fun k hk => ?_⟩
  dsimp only
  rw [getD_lt _ (by simpa using hk), List.getElem_map, getD_lt _ hk]

theorem gs_orth {V : List E} (hV : Ortho ℂ V) (q : E) {i : Nat} (hi : i < V.length) : inner ℂ (V.getD i 0) (gs V q).1 = 0 := by
  rw [(gs_eq hV q).1, inner_sub_right, inner_sum, Finset.sum_eq_single_of_mem i (Finset.mem_range.2 hi), inner_smul_right, hV i hi i hi, if_pos rfl, mul_one, sub_self]
  intro k hk hne
  rw [inner_smul_right, hV i hi k (Finset.mem_range.1 hk), if_neg (Ne.symm hne), mul_zero]

theorem unitOr_unit (rnd : Nat → E) {q : E} (hq : ‖q‖ = 1) (nr : Nat) : unitOr rnd q nr = (q, nr) := by
  rw [unitOr, if_pos (by rw [hq]; norm_num), hq]; simp

theorem gs_fix {V : List E} (hV : Ortho ℂ V) {q : E} (h : ∀ i < V.length, inner ℂ (V.getD i 0) q = 0) : (gs V q).1 = q := by
  rw [(gs_eq hV q).1, Finset.sum_eq_zero, sub_zero]
  intro k hk
  rw [h k (Finset.mem_range.1 hk), zero_smul]

theorem morePasses_fix (rnd : Nat → E) {V : List E} (hV : Ortho ℂ V) {q : E} (hq : ‖q‖ = 1) (h : ∀ i < V.length, inner ℂ (V.getD i 0) q = 0) (n nr : Nat) :
    morePasses rnd V n (q, nr) = (q, nr) := by
  induction n with
  | zero => rfl
  | succ n ih => rw [morePasses]; dsimp only; rw [gs_fix hV h, unitOr_unit rnd hq, ih]

/-! ### Krylov spaces -/

theorem kry_mono (B : E → E) (v : E) {j j' : Nat} (h : j ≤ j') : Kry B v j ≤ Kry B v j' :=
  Submodule.span_mono fun _ ⟨i, hi, e⟩ => ⟨i, by omega, e⟩

theorem kry_map {B : E → E} (hB : IsLinearMap ℂ B) (v : E) {j : Nat} {x : E} (h : x ∈ Kry B v j) : B x ∈ Kry B v (j + 1) := by
  induction h using Submodule.span_induction with
  | mem x hx =>
    obtain ⟨i, hi, rfl⟩ := hx
    exact Submodule.subset_span ⟨i + 1, by omega, by rw [Function.iterate_succ_apply']⟩
  | zero => rw [hB.map_zero]; exact Submodule.zero_mem _
  | add x y _ _ h1 h2 => rw [hB.map_add]; exact Submodule.add_mem _ h1 h2
  | smul a x _ h => rw [hB.map_smul]; exact Submodule.smul_mem _ _ h

/-- What holds of the variables before iteration `j` of a run which starts with `v`. -/
structure Inv (B : E → E) (v : E) (j : Nat) (s : ASt E) : Prop where
  len : s.V.length = j + 1
  head : s.V.getD 0 0 = v
  ortho : Ortho ℂ s.V
  rel : ∀ k < j, B (s.V.getD k 0) = ∑ a ∈ range (k + 2), s.H a k • s.V.getD a 0
  kry : ∀ k ≤ j, s.V.getD k 0 ∈ Kry B v k

/-- Below the first subdiagonal the matrix is zero. -/
def Low (H : Nat → Nat → ℂ) : Prop := ∀ a b, b + 1 < a → H a b = 0

theorem Inv.span_eq {B : E → E} (hB : IsLinearMap ℂ B) {v : E} {j : Nat} {s : ASt E} (h : Inv B v j s) : Kry B v j = linSpan ℂ s.V (j + 1) := by
  have hm : ∀ k ≤ j, ∀ m, k < m → s.V.getD k 0 ∈ linSpan ℂ s.V m := fun k hk m hkm => by
    refine Submodule.subset_span ?_
    exact ⟨k, hkm, rfl⟩
  apply le_antisymm
  · refine Submodule.span_le.2 ?_
    have key : ∀ i ≤ j, B^[i] v ∈ linSpan ℂ s.V (i + 1) := by
      intro i
      induction i with
      | zero => intro _; simp only [Function.iterate_zero, id]; rw [← h.head]; exact hm 0 (by omega) 1 (by omega)
      | succ i ih =>
        intro hi
        rw [Function.iterate_succ_apply']
        obtain ⟨c, hc⟩ := Solvers.exists_lin (ih (by omega))
        rw [hc, lin, show B (∑ k ∈ range (i + 1), c k • s.V.getD k 0) = ∑ k ∈ range (i + 1), c k • B (s.V.getD k 0) from ?_]
        · refine Submodule.sum_mem _ fun k hk => Submodule.smul_mem _ _ ?_
          have hk := Finset.mem_range.1 hk
          rw [h.rel k (by omega)]
          exact Submodule.sum_mem _ fun a ha => Submodule.smul_mem _ _ (hm a (by have := Finset.mem_range.1 ha; omega) _ (by have := Finset.mem_range.1 ha; omega))
        · have := map_sum (IsLinearMap.mk' B hB) (fun k => c k • s.V.getD k 0) (range (i + 1))
          simp only [IsLinearMap.mk'_apply] at this
          rw [this]
          exact Finset.sum_congr rfl fun k _ => hB.map_smul _ _
    rintro x ⟨i, hi, rfl⟩
    obtain ⟨c, hc⟩ := Solvers.exists_lin (key i hi)
    rw [hc]
    exact Submodule.sum_mem _ fun k hk => Submodule.smul_mem _ _ (hm k (by have := Finset.mem_range.1 hk; omega) _ (by have := Finset.mem_range.1 hk; omega))
  · refine Submodule.span_le.2 ?_
    rintro x ⟨k, hk, rfl⟩
    exact kry_mono B v (by omega : k ≤ j) (h.kry k (by omega))

/-! ### One iteration -/

theorem map_lin {B : E → E} (hB : IsLinearMap ℂ B) (c : Nat → ℂ) (V : List E) (n : Nat) : B (lin c V n) = ∑ k ∈ range n, c k • B (V.getD k 0) := by
  have := map_sum (IsLinearMap.mk' B hB) (fun k => c k • V.getD k 0) (range n)
  simp only [IsLinearMap.mk'_apply] at this
  rw [lin, this]
  exact Finset.sum_congr rfl fun k _ => hB.map_smul _ _

/-- The Arnoldi relation for the matrix which is diagonalized. -/
theorem arnoldi_rel {B : E → E} (hB : IsLinearMap ℂ B) {v : E} {j : Nat} {s : ASt E} (h : Inv B v j s) (hl : Low s.H) (c : Nat → ℂ) :
    B (lin c s.V (j + 1)) = lin (fun a => ∑ k ∈ range (j + 1), setCol s.H j (gs s.V (B (s.V.getD j 0))).2 a k * c k) s.V (j + 1)
      + c j • (gs s.V (B (s.V.getD j 0))).1 := by
  have g := gs_eq h.ortho (B (s.V.getD j 0))
  rw [map_lin hB, Finset.sum_range_succ, g.1, h.len]
  unfold lin
  have e : ∑ a ∈ range (j + 1), (∑ k ∈ range (j + 1), setCol s.H j (gs s.V (B (s.V.getD j 0))).2 a k * c k) • s.V.getD a 0
      = (∑ k ∈ range j, c k • B (s.V.getD k 0)) + c j • ∑ a ∈ range (j + 1), inner ℂ (s.V.getD a 0) (B (s.V.getD j 0)) • s.V.getD a 0 := by
    simp only [Finset.sum_smul]
    rw [Finset.sum_comm, Finset.sum_range_succ]
    congr 1
    · refine Finset.sum_congr rfl fun k hk => ?_
      have hk := Finset.mem_range.1 hk
      rw [h.rel k hk, Finset.smul_sum]
      have : ∀ a ∈ range (j + 1), (setCol s.H j (gs s.V (B (s.V.getD j 0))).2 a k * c k) • s.V.getD a 0 = c k • s.H a k • s.V.getD a 0 := by
        intro a _
        rw [setCol, if_neg (by omega), mul_comm, mul_smul]
      rw [Finset.sum_congr rfl this]
      symm
      refine Finset.sum_subset (fun a ha => Finset.mem_range.2 (by have := Finset.mem_range.1 ha; omega)) fun a _ ha => ?_
      rw [hl a k (by have := mt Finset.mem_range.2 ha; omega), zero_smul, smul_zero]
    · rw [Finset.smul_sum]
      refine Finset.sum_congr rfl fun a ha => ?_
      have ha := Finset.mem_range.1 ha
      rw [setCol, if_pos ⟨rfl, by omega⟩, g.2 a (by rw [h.len]; omega), mul_comm, mul_smul]
  rw [e, smul_sub]
  abel

theorem inner_lin_right {V : List E} (hV : Ortho ℂ V) {n : Nat} (hn : n ≤ V.length) (c : Nat → ℂ) {a : Nat} (ha : a < n) : inner ℂ (V.getD a 0) (lin c V n) = c a := by
  unfold lin
  rw [inner_sum, Finset.sum_eq_single_of_mem a (Finset.mem_range.2 ha)]
  · rw [inner_smul_right, hV a (by omega) a (by omega), if_pos rfl, mul_one]
  · intro k hk hne
    rw [inner_smul_right, hV a (by omega) k (by have := Finset.mem_range.1 hk; omega), if_neg (Ne.symm hne), mul_zero]

theorem gs_orth_lin {V : List E} (hV : Ortho ℂ V) (q : E) {n : Nat} (hn : n ≤ V.length) {z : E} (hz : z ∈ linSpan ℂ V n) : inner ℂ z (gs V q).1 = 0 := by
  obtain ⟨c, rfl⟩ := Solvers.exists_lin hz
  unfold lin
  rw [sum_inner]
  refine Finset.sum_eq_zero fun k hk => ?_
  rw [inner_smul_left, gs_orth hV q (by have := Finset.mem_range.1 hk; omega), mul_zero]

theorem span_top {V : List E} (hV : Ortho ℂ V) (h0 : 0 < V.length) (hf : Module.finrank ℂ E = V.length) : linSpan ℂ V V.length = ⊤ := by
  have ho : Orthonormal ℂ fun i : Fin V.length => V.getD i 0 := by
    rw [orthonormal_iff_ite]
    intro a b
    rw [hV a a.2 b b.2]
    simp [Fin.ext_iff]
  have : Nonempty (Fin V.length) := ⟨⟨0, h0⟩⟩
  have := ho.linearIndependent.span_eq_top_of_card_eq_finrank (by rw [hf, Fintype.card_fin])
  rw [linSpan, ← this]
  congr 1
  ext z
  constructor
  · rintro ⟨k, hk, rfl⟩; exact ⟨⟨k, hk⟩, rfl⟩
  · rintro ⟨k, rfl⟩; exact ⟨k, k.2, rfl⟩

theorem gs_zero {V : List E} (hV : Ortho ℂ V) (h0 : 0 < V.length) (hf : Module.finrank ℂ E = V.length) (q : E) : (gs V q).1 = 0 := by
  have := gs_orth_lin hV q le_rfl (z := (gs V q).1) (by rw [span_top hV h0 hf]; trivial)
  exact inner_self_eq_zero.1 this

/-- What an iteration gives. -/
theorem step_ok {B : E → E} (hB : IsLinearMap ℂ B) {eigen : Nat → (Nat → Nat → ℂ) → CEig} (he : EigenOK eigen) (rnd : Nat → E) {o : Opts} (hw : o.which ≠ .other)
    {v : E} {j : Nat} {s : ASt E} (h : Inv B v j s) (hl : Low s.H) :
    ∃ r, step B eigen rnd o j s = .ok r ∧ Low r.st.H ∧ (∃ u, r.st.V = s.V ++ [u]) ∧ Found B o.which v j r.lam (lin r.y s.V (j + 1)) ∧
      ‖B (lin r.y s.V (j + 1)) - r.lam • lin r.y s.V (j + 1)‖ = r.err ∧ (r.err ≠ 0 → Inv B v (j + 1) r.st) ∧
      (Module.finrank ℂ E = j + 1 → r.err = 0) := by
  have hj : s.V[j]? = some (s.V.getD j 0) := by
    rw [getD_lt _ (by rw [h.len]; omega), List.getElem?_eq_getElem]
  set g := gs s.V (B (s.V.getD j 0)) with hg
  set M := setCol s.H j g.2 with hM
  obtain ⟨n, hn, en, hx⟩ := findEig_ok hw (eigen (j + 1) M).D j
  have hE := he (j + 1) M (by omega)
  set y : Nat → ℂ := fun k => (eigen (j + 1) M).Y k n with hy
  set u := morePasses rnd s.V o.extra (unitOr rnd g.1 s.nr) with hu
  have hs : step B eigen rnd o j s = .ok ⟨⟨s.V ++ [u.1], fun a b => if a = j + 1 ∧ b = j then ((‖g.1‖ : ℝ) : ℂ) else M a b, u.2⟩,
      (eigen (j + 1) M).D n, ‖g.1‖ * ‖(eigen (j + 1) M).Y j n‖, y⟩ := by
    simp only [step, hj, ← hg, ← hM, en, Res.bind_ok, ← hu, hy]
  have hlen := h.len
  have res : B (lin y s.V (j + 1)) - (eigen (j + 1) M).D n • lin y s.V (j + 1) = y j • g.1 := by
    rw [arnoldi_rel hB h hl y, ← hg, ← hM, sub_eq_iff_eq_add, add_comm]
    congr 1
    unfold lin
    rw [Finset.smul_sum]
    refine Finset.sum_congr rfl fun a ha => ?_
    rw [smul_smul, ← hE.vec a (Finset.mem_range.1 ha) n (by omega)]
  have hsp := h.span_eq hB
  refine ⟨_, hs, ?_, ⟨_, rfl⟩, ⟨?_, ⟨?_, ?_, ?_⟩, ?_⟩, ?_, ?_, ?_⟩
  · intro a b hab
    dsimp only
    rw [if_neg (by omega), hM, setCol, if_neg (by omega), hl a b hab]
  · have := Solvers.inner_lin (𝕜 := ℂ) h.ortho (n := j + 1) (by omega) y y
    rw [hE.unit n (by omega), inner_self_eq_norm_sq_to_K] at this
    have h2 : ‖lin y s.V (j + 1)‖ ^ 2 = 1 := Complex.ofReal_injective (by rw [Complex.ofReal_pow, Complex.ofReal_one]; exact this)
    have := norm_nonneg (lin y s.V (j + 1))
    nlinarith
  · rw [hsp]; exact Solvers.lin_mem _ _ _
  · intro h0
    have := Solvers.inner_lin (𝕜 := ℂ) h.ortho (n := j + 1) (by omega) y y
    rw [hE.unit n (by omega), h0, inner_zero_left] at this
    exact zero_ne_one this
  · intro z hz
    dsimp only
    rw [hsp] at hz
    rw [res, inner_smul_right, gs_orth_lin h.ortho _ (by omega) hz, mul_zero]
  · intro mu z hz
    obtain ⟨hz1, hz2, hz3⟩ := hz
    rw [hsp] at hz1 hz3
    obtain ⟨c, rfl⟩ := Solvers.exists_lin hz1
    have h1 : ∃ k < j + 1, c k ≠ 0 := by
      by_contra hc
      push Not at hc
      exact hz2 (Finset.sum_eq_zero fun k hk => by rw [hc k (Finset.mem_range.1 hk), zero_smul])
    have h2 : ∀ i < j + 1, ∑ k ∈ range (j + 1), M i k * c k = mu * c i := by
      intro i hi
      have hm : s.V.getD i 0 ∈ linSpan ℂ s.V (j + 1) := Submodule.subset_span ⟨i, hi, rfl⟩
      have := hz3 _ hm
      rw [arnoldi_rel hB h hl c, ← hg, ← hM, inner_sub_right, inner_add_right, inner_smul_right, inner_smul_right, gs_orth h.ortho _ (by omega),
        inner_lin_right h.ortho (by omega) _ hi, inner_lin_right h.ortho (by omega) _ hi, mul_zero, add_zero, sub_eq_zero] at this
      exact this
    obtain ⟨t, ht, et⟩ := hE.all mu c h1 h2
    dsimp only
    rw [← et]
    exact hx t (by omega)
  · dsimp only
    rw [res, norm_smul, mul_comm]
  · intro herr
    dsimp only at herr
    have hnh : ‖g.1‖ ≠ 0 := fun h0 => herr (by rw [h0, zero_mul])
    have hn1 : ‖((1 / ‖g.1‖ : ℝ) : ℂ) • g.1‖ = 1 := Solvers.norm_scaled (𝕜 := ℂ) hnh
    have hor : ∀ i < s.V.length, inner ℂ (s.V.getD i 0) (((1 / ‖g.1‖ : ℝ) : ℂ) • g.1) = 0 := fun i hi => by
      rw [inner_smul_right, gs_orth h.ortho _ hi, mul_zero]
    have hu' : u.1 = ((1 / ‖g.1‖ : ℝ) : ℂ) • g.1 := by
      rw [hu, unitOr, if_pos hnh, morePasses_fix rnd h.ortho hn1 hor]
    have hng : ((‖g.1‖ : ℝ) : ℂ) • u.1 = g.1 := by
      rw [hu', smul_smul, ← Complex.ofReal_mul, mul_one_div_cancel hnh, Complex.ofReal_one, one_smul]
    have hlast : (s.V ++ [u.1]).getD (j + 1) 0 = u.1 := by rw [← hlen]; exact Solvers.getD_append_last
    have hold : ∀ k ≤ j, (s.V ++ [u.1]).getD k 0 = s.V.getD k 0 := fun k hk => Solvers.getD_append_left' (by omega)
    have hg1 := gs_eq h.ortho (B (s.V.getD j 0))
    rw [← hg] at hg1
    refine ⟨?_, ?_, ?_, ?_, ?_⟩
    · simp [hlen]
    · rw [← h.head]; exact hold 0 (by omega)
    · exact Solvers.ortho_append h.ortho (by rw [hu']; exact hn1) (by rw [hu']; exact hor)
    · intro k hk
      dsimp only
      rw [hold k (by omega)]
      rcases Nat.lt_or_ge k j with hkj | hkj
      · rw [h.rel k hkj]
        refine Finset.sum_congr rfl fun a ha => ?_
        have ha := Finset.mem_range.1 ha
        rw [hold a (by omega), if_neg (by omega), hM, setCol, if_neg (by omega)]
      · obtain rfl : k = j := by omega
        rw [Finset.sum_range_succ, hlast, if_pos ⟨rfl, rfl⟩, hng, hg1.1, hlen]
        have : ∑ a ∈ range (k + 1), (if a = k + 1 ∧ k = k then ((‖g.1‖ : ℝ) : ℂ) else M a k) • (s.V ++ [u.1]).getD a 0
            = ∑ a ∈ range (k + 1), inner ℂ (s.V.getD a 0) (B (s.V.getD k 0)) • s.V.getD a 0 := by
          refine Finset.sum_congr rfl fun a ha => ?_
          have ha := Finset.mem_range.1 ha
          rw [hold a (by omega), if_neg (by omega), hM, setCol, if_pos ⟨rfl, by omega⟩, hg1.2 a (by omega)]
        rw [hg1.1, hlen] at this
        rw [this]
        abel
    · intro k hk
      dsimp only
      rcases Nat.lt_or_ge k (j + 1) with hkj | hkj
      · rw [hold k (by omega)]; exact h.kry k (by omega)
      · obtain rfl : k = j + 1 := by omega
        rw [hlast, hu', hg1.1]
        refine Submodule.smul_mem _ _ (Submodule.sub_mem _ (kry_map hB v (h.kry j le_rfl)) (Submodule.sum_mem _ fun a ha => Submodule.smul_mem _ _ ?_))
        have ha := Finset.mem_range.1 ha
        exact kry_mono B v (by omega) (h.kry a (by omega))
  · intro hf
    dsimp only
    rw [gs_zero h.ortho (by omega) (by rw [hlen, hf]), norm_zero, zero_mul]

/-! ### The loops -/

/-- A pair got from the start `v` with at most `last + 1` products: an extreme Ritz pair of a Krylov space, which is the largest one allowed unless the error
is below the goal. -/
structure PairOK (B : E → E) (o : Opts) (last : Nat) (v : E) (lam : ℂ) (x : E) : Prop where
  found : ∃ j ≤ last, Found B o.which v j lam x ∧ (‖B x - lam • x‖ < o.errgoal ∨ j = last)
  full : Module.finrank ℂ E = last + 1 → ‖B x - lam • x‖ < o.errgoal

theorem iterate_ok {B : E → E} (hB : IsLinearMap ℂ B) {eigen : Nat → (Nat → Nat → ℂ) → CEig} (he : EigenOK eigen) (rnd : Nat → E) {o : Opts} (hw : o.which ≠ .other)
    (hg : 0 < o.errgoal) {v : E} (rem : Nat) : ∀ {j : Nat} {s : ASt E}, Inv B v j s → Low s.H →
    ∃ r n, iterate B eigen rnd o rem j s = .ok (r, n) ∧ Low r.st.H ∧ 0 < n ∧ n ≤ r.st.V.length ∧ n ≤ j + rem + 1 ∧
      Found B o.which v (n - 1) r.lam (lin r.y r.st.V n) ∧ ‖B (lin r.y r.st.V n) - r.lam • lin r.y r.st.V n‖ = r.err ∧
      (r.err < o.errgoal ∨ n = j + rem + 1) ∧ (Module.finrank ℂ E = j + rem + 1 → r.err < o.errgoal) := by
  induction rem with
  | zero =>
    intro j s h hl
    obtain ⟨r, e, h1, ⟨u, h2⟩, h3, h4, h5, h6⟩ := step_ok hB he rnd hw h hl
    have hlin : lin r.y r.st.V (j + 1) = lin r.y s.V (j + 1) := by rw [h2]; exact Solvers.lin_append (by rw [h.len]) _
    refine ⟨r, j + 1, by rw [iterate, e, Res.bind_ok], h1, by omega, by rw [h2, List.length_append, h.len]; omega, by omega, ?_, ?_, Or.inr rfl, fun hf => ?_⟩
    · rw [hlin]; exact h3
    · rw [hlin]; exact h4
    · rw [h6 (by omega)]; exact hg
  | succ rem ih =>
    intro j s h hl
    obtain ⟨r, e, h1, ⟨u, h2⟩, h3, h4, h5, h6⟩ := step_ok hB he rnd hw h hl
    have hlin : lin r.y r.st.V (j + 1) = lin r.y s.V (j + 1) := by rw [h2]; exact Solvers.lin_append (by rw [h.len]) _
    by_cases hc : r.err < o.errgoal
    · refine ⟨r, j + 1, by rw [iterate, e, Res.bind_ok, if_pos hc], h1, by omega, by rw [h2, List.length_append, h.len]; omega, by omega, ?_, ?_, Or.inl hc, fun _ => hc⟩
      · rw [hlin]; exact h3
      · rw [hlin]; exact h4
    · have h0 : r.err ≠ 0 := fun h0 => hc (by rw [h0]; exact hg)
      obtain ⟨r', n, e', g1, g2, g3, g4, g5, g6, g7, g8⟩ := ih (h5 h0) h1
      exact ⟨r', n, by rw [iterate, e, Res.bind_ok, if_neg hc, e'], g1, g2, g3, by omega, g5, g6, g7.imp id (by omega), fun hf => g8 (by omega)⟩

theorem inv_start (B : E → E) {v : E} (hv : ‖v‖ = 1) (H : Nat → Nat → ℂ) (nr : Nat) : Inv B v 0 ⟨[v], H, nr⟩ where
  len := rfl
  head := rfl
  ortho := by
    intro i hi j hj
    simp only [List.length_singleton] at hi hj
    obtain rfl : i = 0 := by omega
    obtain rfl : j = 0 := by omega
    simp [inner_self_eq_norm_sq_to_K, hv]
  rel := by intro k hk; omega
  kry := by
    intro k hk
    obtain rfl : k = 0 := by omega
    exact Submodule.subset_span ⟨0, le_rfl, rfl⟩

theorem restarts_ok {B : E → E} (hB : IsLinearMap ℂ B) {eigen : Nat → (Nat → Nat → ℂ) → CEig} (he : EigenOK eigen) (rnd : Nat → E) {o : Opts} (hw : o.which ≠ .other)
    (hg : 0 < o.errgoal) (last rem : Nat) : ∀ {v : E} (_ : ‖v‖ = 1) {H : Nat → Nat → ℂ} (_ : Low H) (nr : Nat),
    ∃ lam x H' nr', restarts B eigen rnd o last rem v H nr = .ok ((lam, x), H', nr') ∧ Low H' ∧ ∃ v', PairOK B o last v' lam x ∧ ‖v'‖ = 1 ∧ (rem = 0 → v' = v) := by
  induction rem with
  | zero =>
    intro v hv H hH nr
    obtain ⟨r, n, e, h1, h2, h3, h4, h5, h6, h7, h8⟩ := iterate_ok hB he rnd hw hg last (inv_start B hv H nr) hH
    have hx := h5.norm
    refine ⟨r.lam, lin r.y r.st.V n, r.st.H, r.st.nr, ?_, h1, v, ⟨⟨n - 1, by omega, h5, ?_⟩, fun hf => ?_⟩, hv, fun _ => rfl⟩
    · rw [restarts, e, Res.bind_ok, Solvers.comb_ok _ _ h2 h3, Res.bind_ok]
      dsimp only
      rw [unitOr_unit rnd hx]
      split <;> rfl
    · rw [h6]; exact h7.imp id (by omega)
    · rw [h6]; exact h8 (by omega)
  | succ rem ih =>
    intro v hv H hH nr
    obtain ⟨r, n, e, h1, h2, h3, h4, h5, h6, h7, h8⟩ := iterate_ok hB he rnd hw hg last (inv_start B hv H nr) hH
    have hx := h5.norm
    by_cases hc : r.err < o.errgoal
    · refine ⟨r.lam, lin r.y r.st.V n, r.st.H, r.st.nr, ?_, h1, v, ⟨⟨n - 1, by omega, h5, ?_⟩, fun hf => ?_⟩, hv, fun _ => rfl⟩
      · rw [restarts, e, Res.bind_ok, Solvers.comb_ok _ _ h2 h3, Res.bind_ok]
        dsimp only
        rw [unitOr_unit rnd hx, if_pos hc]
      · rw [h6]; exact h7.imp id (by omega)
      · rw [h6]; exact hc
    · obtain ⟨lam, x, H', nr', e', g1, v', g2, g3, _⟩ := ih hx h1 r.st.nr
      refine ⟨lam, x, H', nr', ?_, g1, v', g2, g3, by omega⟩
      rw [restarts, e, Res.bind_ok, Solvers.comb_ok _ _ h2 h3, Res.bind_ok]
      dsimp only
      rw [unitOr_unit rnd hx, if_neg hc]
      exact e'

/-- The operator with the pairs of `prev` removed. -/
theorem deflate_eq (A : E → E) (prev : List (ℂ × E)) (x : E) : deflate A prev x = A x - (prev.map fun p => (p.1 * inner ℂ p.2 x) • p.2).sum := by
  have key : ∀ (l : List (ℂ × E)) (s : E), l.foldl (fun s p => s + (-p.1 * inner ℂ p.2 x) • p.2) s = s - (l.map fun p => (p.1 * inner ℂ p.2 x) • p.2).sum := by
    intro l
    induction l with
    | nil => intro s; simp
    | cons p l ih =>
      intro s
      rw [List.foldl_cons, ih, List.map_cons, List.sum_cons, neg_mul, neg_smul]
      abel
  exact key prev _

theorem deflate_lin {A : E → E} (hA : IsLinearMap ℂ A) (prev : List (ℂ × E)) : IsLinearMap ℂ (deflate A prev) := by
  induction prev using List.reverseRecOn with
  | nil => exact hA
  | append_singleton l p ih =>
    have e : ∀ x, deflate A (l ++ [p]) x = deflate A l x - (p.1 * inner ℂ p.2 x) • p.2 := by
      intro x
      rw [deflate_eq, deflate_eq, List.map_append, List.sum_append, List.map_singleton, List.sum_singleton]
      abel
    refine ⟨fun x y => ?_, fun c x => ?_⟩
    · rw [e, e, e, ih.map_add, inner_add_right, mul_add, add_smul]; abel
    · rw [e, e, ih.map_smul, inner_smul_right, smul_sub, smul_smul]; congr 2; ring

theorem solveAll_ok {A : E → E} (hA : IsLinearMap ℂ A) {eigen : Nat → (Nat → Nat → ℂ) → CEig} (he : EigenOK eigen) (rnd : Nat → E) {o : Opts} (hw : o.which ≠ .other)
    (hg : 0 < o.errgoal) (last rem : Nat) (l : List E) : (∀ x ∈ l, ‖x‖ = 1) → ∀ (prev : List (ℂ × E)) {H : Nat → Nat → ℂ} (_ : Low H) (nr : Nat),
    ∃ new, solveAll A eigen rnd o last rem l prev H nr = .ok (prev ++ new) ∧ new.length = l.length ∧
      ∀ w (h : w < new.length) (h' : w < l.length), ∃ v', PairOK (deflate A (prev ++ new.take w)) o last v' new[w].1 new[w].2 ∧ ‖v'‖ = 1 ∧ (rem = 0 → v' = l[w]) := by
  induction l with
  | nil => intro _ prev H _ nr; exact ⟨[], by simp [solveAll], rfl, by simp⟩
  | cons x l ih =>
    intro hl prev H hH nr
    obtain ⟨lam, z, H', nr', e, h1, v', h2, h3, h4⟩ := restarts_ok (deflate_lin hA prev) he rnd hw hg last rem (hl x (by simp)) hH nr
    obtain ⟨new, e', g1, g2⟩ := ih (fun y hy => hl y (by simp [hy])) (prev ++ [(lam, z)]) h1 nr'
    refine ⟨(lam, z) :: new, by rw [solveAll, e, Res.bind_ok]; dsimp only; rw [e']; simp, by simp [g1], ?_⟩
    intro w hw' hw''
    cases w with
    | zero => exact ⟨v', by simpa using h2, h3, by simpa using h4⟩
    | succ w =>
      obtain ⟨v'', k1, k2, k3⟩ := g2 w (by simpa using hw') (by simpa using hw'')
      exact ⟨v'', by simpa using k1, k2, by simpa using k3⟩

end Verif.Arnoldi
