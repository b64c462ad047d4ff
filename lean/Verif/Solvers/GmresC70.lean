import Verif.Solvers.GmresProps

/-!
# GMRES solves the equation for real numbers, and fails to for complex ones
-/

noncomputable section

namespace Verif.Solvers

open scoped BigOperators
open Finset (range)

section Real

variable {E : Type*} [NormedAddCommGroup E] [InnerProductSpace ℝ E]

local notation "⟪" x ", " y "⟫" => inner ℝ x y

/-- The state after `i` steps, with `nv` vectors computed. -/
structure GInv (A : E →ₗ[ℝ] E) (r0 : E) (i nv : Nat) (st : GSt ℝ E) (V : Nat → E) : Prop where
  hv : ∀ k < nv, st.v k = some (V k)
  on : ∀ a < nv, ∀ b < nv, ⟪V a, V b⟫ = if a = b then 1 else 0
  unit : ∀ k < i, st.cs k * st.cs k + st.sn k * st.sn k = 1
  R : ∀ j < i, A (V j) = ∑ k ∈ range (j + 1), st.H k j • gv st.cs st.sn V k
  dg : ∀ j < i, st.H j j ≠ 0
  res : r0 = ∑ k ∈ range i, st.s k • gv st.cs st.sn V k + st.s i • pv st.cs st.sn V i
  sz : ∀ k, i < k → st.s k = 0
  v0 : r0 = ‖r0‖ • V 0

/-- The vectors of the triangular form are images. -/
theorem GInv.gv_image {A : E →ₗ[ℝ] E} {r0 : E} {i nv : Nat} {st : GSt ℝ E} {V : Nat → E} (h : GInv A r0 i nv st V) : ∀ k < i, gv st.cs st.sn V k ∈ (spn V i).map A := by
  intro k
  induction k using Nat.strong_induction_on with
  | _ k ih =>
    intro hk
    have hR := h.R k hk
    rw [Finset.sum_range_succ] at hR
    have e : gv st.cs st.sn V k = (st.H k k)⁻¹ • (A (V k) - ∑ l ∈ range k, st.H l k • gv st.cs st.sn V l) := by
      rw [hR, add_sub_cancel_left, smul_smul, inv_mul_cancel₀ (h.dg k hk), one_smul]
    rw [e]
    refine Submodule.smul_mem _ _ (Submodule.sub_mem _ (Submodule.mem_map_of_mem (spn_mem hk)) (Submodule.sum_mem _ fun l hl => Submodule.smul_mem _ _ ?_))
    have := Finset.mem_range.1 hl
    exact ih l this (by omega)

/-- Images of the vectors are combinations of the vectors of the triangular form. -/
theorem GInv.image_orth {A : E →ₗ[ℝ] E} {r0 : E} {i nv : Nat} {st : GSt ℝ E} {V : Nat → E} (h : GInv A r0 i nv st V) {p : E} (hp : ∀ k < i, ⟪gv st.cs st.sn V k, p⟫ = 0)
    {z : E} (hz : z ∈ spn V i) : ⟪A z, p⟫ = 0 := by
  unfold spn at hz
  induction hz using Submodule.span_induction with
  | mem x hx =>
    obtain ⟨j, hj, rfl⟩ := hx
    rw [h.R j hj, sum_inner]
    exact Finset.sum_eq_zero fun k hk => by rw [real_inner_smul_left, hp k (by have := Finset.mem_range.1 hk; omega), mul_zero]
  | zero => rw [map_zero, inner_zero_left]
  | add x y _ _ h1 h2 => rw [map_add, inner_add_left, h1, h2, add_zero]
  | smul a x _ h1 => rw [map_smul, real_inner_smul_left, h1, mul_zero]

/-- No vector searched gives a smaller residual. -/
theorem GInv.minimal {A : E →ₗ[ℝ] E} {r0 : E} {i : Nat} {st : GSt ℝ E} {V : Nat → E} (h : GInv A r0 i (i + 1) st V) {z : E} (hz : z ∈ spn V i) : |st.s i| ≤ ‖r0 - A z‖ := by
  obtain ⟨h1, h2, h3⟩ := rot_ortho h.unit fun a ha b hb => h.on a (by omega) b (by omega)
  have hn : ‖pv st.cs st.sn V i‖ = 1 := by
    rw [real_inner_self_eq_norm_sq] at h1
    have := norm_nonneg (pv st.cs st.sn V i)
    nlinarith
  have e : ⟪r0 - A z, pv st.cs st.sn V i⟫ = st.s i := by
    rw [inner_sub_left, h.image_orth h2 hz, sub_zero]
    conv_lhs => rw [h.res]
    rw [inner_add_left, sum_inner, Finset.sum_eq_zero, zero_add, real_inner_smul_left, h1, mul_one]
    intro k hk
    rw [real_inner_smul_left, h2 k (Finset.mem_range.1 hk), mul_zero]
  rw [← e]
  have := abs_real_inner_le_norm (r0 - A z) (pv st.cs st.sn V i)
  rwa [hn, mul_one] at this

theorem GInv.p_norm {A : E →ₗ[ℝ] E} {r0 : E} {i : Nat} {st : GSt ℝ E} {V : Nat → E} (h : GInv A r0 i (i + 1) st V) : ‖pv st.cs st.sn V i‖ = 1 := by
  obtain ⟨h1, -, -⟩ := rot_ortho h.unit fun a ha b hb => h.on a (by omega) b (by omega)
  rw [real_inner_self_eq_norm_sq] at h1
  have := norm_nonneg (pv st.cs st.sn V i)
  nlinarith

/-- The solution of the small system. -/
theorem GInv.update_ok {A : E →ₗ[ℝ] E} {r0 : E} {i nv : Nat} {st : GSt ℝ E} {V : Nat → E} (h : GInv A r0 i nv st V) (hn : i ≤ nv) (x : E) :
    ∃ z, gupdate x i st = .ok (x + z) ∧ z ∈ spn V i ∧ r0 - A z = st.s i • pv st.cs st.sn V i := by
  obtain ⟨y, e, -, hy⟩ := backsolve_ok i h.dg st.s
  refine ⟨∑ j ∈ range i, y j • V j, ?_, ?_, ?_⟩
  · unfold gupdate
    rw [e, Res.bind_ok, addAll_ok (V := V) (fun k hk => h.hv k (by omega)) y x i (le_refl _)]
  · exact Submodule.sum_mem _ fun j hj => Submodule.smul_mem _ _ (spn_mem (Finset.mem_range.1 hj))
  · have hA : A (∑ j ∈ range i, y j • V j) = ∑ k ∈ range i, st.s k • gv st.cs st.sn V k := by
      rw [map_sum]
      have h1 : ∀ j ∈ Finset.Ico 0 i, A (y j • V j) = ∑ k ∈ Finset.Ico 0 (j + 1), (st.H k j * y j) • gv st.cs st.sn V k := by
        intro j hj
        rw [map_smul, h.R j (Finset.mem_Ico.1 hj).2, Finset.smul_sum, Finset.range_eq_Ico]
        exact Finset.sum_congr rfl fun k _ => by rw [smul_smul, mul_comm]
      rw [Finset.range_eq_Ico, Finset.sum_congr rfl h1, ← Finset.sum_Ico_Ico_comm]
      refine Finset.sum_congr rfl fun k hk => ?_
      rw [← Finset.sum_smul, hy k (Finset.mem_Ico.1 hk).2]
    rw [hA]
    conv_lhs => rw [h.res]
    abel

/-- One step. Either there is a new vector, or the residual has become zero. -/
theorem gstep_ok {A : E →ₗ[ℝ] E} (hA : Function.Injective A) {r0 : E} {i : Nat} {st : GSt ℝ E} {V : Nat → E} (h : GInv A r0 i (i + 1) st V) :
    ∃ st' V', gstep A Real.sqrt i st = .ok st' ∧ (∀ k ≤ i, V' k = V k) ∧ (GInv A r0 (i + 1) (i + 2) st' V' ∨ (GInv A r0 (i + 1) (i + 1) st' V' ∧ st'.s (i + 1) = 0)) := by
  unfold gstep
  rw [h.hv i (by omega)]
  dsimp only
  obtain ⟨w, col', e, hw, horth, -⟩ := mgs_ok h.hv h.on (A (V i)) (fun k => st.H k i) (i + 1) (le_refl _)
  rw [e]
  simp only [Res.bind_ok]
  set V' : Nat → E := Function.update V (i + 1) (if ‖w‖ = 0 then 0 else (1 / ‖w‖) • w) with hV'
  have hVle : ∀ k ≤ i, V' k = V k := fun k hk => by rw [hV', Function.update_of_ne (by omega)]
  have hVi : V' (i + 1) = if ‖w‖ = 0 then 0 else (1 / ‖w‖) • w := by rw [hV', Function.update_self]
  have hwV : w = ‖w‖ • V' (i + 1) := by
    rw [hVi]
    split
    · rename_i h0; rw [norm_eq_zero.1 h0]; simp
    · rename_i h0; rw [smul_smul, mul_one_div, div_self h0, one_smul]
  set col1 : Nat → ℝ := Function.update col' (i + 1) ‖w‖ with hcol1
  obtain ⟨hrot, hrot2⟩ := rotCol_ok (cs := st.cs) (sn := st.sn) V h.unit col1 i (le_refl _)
  set c := rotCol st.cs st.sn col1 i with hc
  have hci : c (i + 1) = ‖w‖ := by rw [hrot2 _ (by omega), hcol1, Function.update_self]
  obtain ⟨cs', sn', eg, g1, g2, g3, g4⟩ := rotGen_real (c i) (c (i + 1))
  show ∃ st' V', ((rotGen Real.sqrt (c i) (c (i + 1))).bind _) = _ ∧ _
  rw [eg]
  simp only [Res.bind_ok, rotApp_real]
  have hs1 : st.s (i + 1) = 0 := h.sz _ (by omega)
  -- the expansion of the image
  have hAV : A (V i) = ∑ j ∈ range i, c j • gv st.cs st.sn V j + c i • pv st.cs st.sn V i + c (i + 1) • V' (i + 1) := by
    rw [← hrot, hci, ← hwV]
    conv_lhs => rw [hw]
    rw [add_comm]
    congr 1
    refine Finset.sum_congr rfl fun j hj => ?_
    rw [hcol1, Function.update_of_ne (by have := Finset.mem_range.1 hj; omega)]
  have hgc : ∀ k < i, gv (Function.update st.cs i cs') (Function.update st.sn i sn') V' k = gv st.cs st.sn V k := fun k hk =>
    gv_congr (fun k hk => Function.update_of_ne (by omega) _ _) (fun k hk => Function.update_of_ne (by omega) _ _) hVle hk
  have hpc : pv (Function.update st.cs i cs') (Function.update st.sn i sn') V' i = pv st.cs st.sn V i :=
    pv_congr (fun k hk => Function.update_of_ne (by omega) _ _) (fun k hk => Function.update_of_ne (by omega) _ _) hVle i (le_refl _)
  have hgi : gv (Function.update st.cs i cs') (Function.update st.sn i sn') V' i = cs' • pv st.cs st.sn V i + sn' • V' (i + 1) := by
    unfold gv; rw [hpc, Function.update_self, Function.update_self]
  have hpi : pv (Function.update st.cs i cs') (Function.update st.sn i sn') V' (i + 1) = (-sn') • pv st.cs st.sn V i + cs' • V' (i + 1) := by
    rw [pv, hpc, Function.update_self, Function.update_self]
  have hsplit := rot_vec g1 (c i) (c (i + 1)) (pv st.cs st.sn V i) (V' (i + 1))
  have hdiag : cs' * c i + sn' * c (i + 1) ≠ 0 := by
    by_cases hd : c (i + 1) = 0
    · obtain ⟨rfl, rfl⟩ := g4 hd
      intro h0
      have hci0 : c i = 0 := by simpa using h0
      rw [hci0, hd, zero_smul, zero_smul, add_zero, add_zero] at hAV
      have hmem : A (V i) ∈ (spn V i).map A := by
        rw [hAV]
        exact Submodule.sum_mem _ fun k hk => Submodule.smul_mem _ _ (h.gv_image k (Finset.mem_range.1 hk))
      obtain ⟨z, hz, hz2⟩ := hmem
      rw [hA hz2] at hz
      have h1 : ⟪V i, V i⟫ = 0 := spn_orth (fun k hk => by rw [h.on k (by omega) i (by omega), if_neg (by omega)]) hz
      rw [h.on i (by omega) i (by omega), if_pos rfl] at h1
      exact one_ne_zero h1
    · exact g3 hd
  refine ⟨_, V', rfl, hVle, ?_⟩
  -- everything but the vectors
  have common : ∀ (v' : Nat → Option E) (nv : Nat), (∀ k < nv, v' k = some (V' k)) → (∀ a < nv, ∀ b < nv, ⟪V' a, V' b⟫ = if a = b then 1 else 0) →
      GInv A r0 (i + 1) nv ⟨v', fun a b => if b = i then Function.update (Function.update c i (cs' * c i + sn' * c (i + 1))) (i + 1) (-sn' * c i + cs' * c (i + 1)) a else st.H a b,
        Function.update (Function.update st.s i (cs' * st.s i + sn' * st.s (i + 1))) (i + 1) (-sn' * st.s i + cs' * st.s (i + 1)),
        Function.update st.cs i cs', Function.update st.sn i sn'⟩ V' := by
    intro v' nv hv' hon'
    constructor
    · exact hv'
    · exact hon'
    · intro k hk
      dsimp only
      rcases Nat.lt_or_ge k i with hki | hki
      · rw [Function.update_of_ne (by omega), Function.update_of_ne (by omega)]; exact h.unit k hki
      · obtain rfl : k = i := by omega
        rw [Function.update_self, Function.update_self]; exact g1
    · intro j hj
      dsimp only
      rcases Nat.lt_or_ge j i with hji | hji
      · rw [hVle j (by omega), h.R j hji]
        refine Finset.sum_congr rfl fun k hk => ?_
        rw [if_neg (by omega), hgc k (by have := Finset.mem_range.1 hk; omega)]
      · obtain rfl : j = i := by omega
        rw [hVle j (le_refl _), hAV, add_assoc, hsplit, g2, zero_smul, add_zero, Finset.sum_range_succ, hgi]
        simp only [if_true]
        rw [Function.update_of_ne (by omega) _ _, Function.update_self]
        congr 1
        refine Finset.sum_congr rfl fun k hk => ?_
        have := Finset.mem_range.1 hk
        rw [hgc k this, Function.update_of_ne (by omega), Function.update_of_ne (by omega)]
    · intro j hj
      dsimp only
      rcases Nat.lt_or_ge j i with hji | hji
      · rw [if_neg (by omega)]; exact h.dg j hji
      · obtain rfl : j = i := by omega
        rw [if_pos rfl, Function.update_of_ne (by omega), Function.update_self]
        exact hdiag
    · dsimp only
      rw [Function.update_self, hs1, Finset.sum_range_succ, hgi, hpi, Function.update_of_ne (by omega), Function.update_self]
      have h2 := rot_vec g1 (st.s i) 0 (pv st.cs st.sn V i) (V' (i + 1))
      rw [zero_smul, add_zero] at h2
      conv_lhs => rw [h.res]
      rw [h2, add_assoc]
      congr 1
      refine Finset.sum_congr rfl fun k hk => ?_
      have := Finset.mem_range.1 hk
      rw [hgc k this, Function.update_of_ne (by omega), Function.update_of_ne (by omega)]
    · intro k hk
      dsimp only
      rw [Function.update_of_ne (by omega), Function.update_of_ne (by omega)]
      exact h.sz k (by omega)
    · rw [hVle 0 (by omega)]; exact h.v0
  by_cases h0 : ‖w‖ = 0
  · right
    refine ⟨common _ (i + 1) ?_ ?_, ?_⟩
    · intro k hk
      rw [if_pos h0, hVle k (by omega)]
      exact h.hv k hk
    · intro a ha b hb
      rw [hVle a (by omega), hVle b (by omega)]
      exact h.on a ha b hb
    · dsimp only
      obtain ⟨rfl, rfl⟩ := g4 (by rw [hci]; exact h0)
      rw [Function.update_self, hs1]; simp
  · left
    refine common _ (i + 2) ?_ ?_
    · intro k hk
      rw [if_neg h0]
      rcases Nat.lt_or_ge k (i + 1) with hki | hki
      · rw [Function.update_of_ne (by omega), hVle k (by omega)]; exact h.hv k hki
      · obtain rfl : k = i + 1 := by omega
        rw [Function.update_self, hVi, if_neg h0]
        rfl
    · have hVw : ∀ a < i + 1, ⟪V' a, V' (i + 1)⟫ = 0 := by
        intro a ha
        rw [hVi, if_neg h0, hVle a (by omega), real_inner_smul_right, horth a ha, mul_zero]
      intro a ha b hb
      rcases Nat.lt_or_ge a (i + 1) with hai | hai
      · rcases Nat.lt_or_ge b (i + 1) with hbi | hbi
        · rw [hVle a (by omega), hVle b (by omega)]; exact h.on a hai b hbi
        · obtain rfl : b = i + 1 := by omega
          rw [hVw a hai, if_neg (by omega)]
      · obtain rfl : a = i + 1 := by omega
        rcases Nat.lt_or_ge b (i + 1) with hbi | hbi
        · rw [real_inner_comm, hVw b hbi, if_neg (by omega)]
        · obtain rfl : b = i + 1 := by omega
          rw [if_pos rfl, hVi, if_neg h0, real_inner_smul_left, real_inner_smul_right, real_inner_self_eq_norm_sq]
          field_simp

/-- A round of the inner loop. -/
theorem gcycle_ok {A : E →ₗ[ℝ] E} (hA : Function.Injective A) {r0 : E} {normb tol : ℝ} (ht : 0 < tol) (rem : Nat) : ∀ {i : Nat} {st : GSt ℝ E} {V : Nat → E},
    GInv A r0 i (i + 1) st V → ∃ st' i' done V', gcycle A Real.sqrt normb tol rem i st = .ok (st', i', done) ∧
      ((done = false ∧ i' = i + rem ∧ GInv A r0 i' (i' + 1) st' V') ∨
       (done = true ∧ |st'.s i'| / normb < tol ∧ (GInv A r0 i' (i' + 1) st' V' ∨ (GInv A r0 i' i' st' V' ∧ st'.s i' = 0)))) := by
  induction rem with
  | zero => intro i st V h; exact ⟨st, i, false, V, rfl, Or.inl ⟨rfl, rfl, h⟩⟩
  | succ rem ih =>
    intro i st V h
    obtain ⟨st', V', e, -, h'⟩ := gstep_ok hA h
    rw [gcycle, e, Res.bind_ok]
    split
    · rename_i hlt
      exact ⟨st', i + 1, true, V', rfl, Or.inr ⟨rfl, hlt, h'⟩⟩
    · rename_i hlt
      rcases h' with h' | ⟨-, h0⟩
      · obtain ⟨st2, i2, d2, V2, e2, h2⟩ := ih h'
        refine ⟨st2, i2, d2, V2, e2, ?_⟩
        rw [show i + 1 + rem = i + (rem + 1) by omega] at h2
        exact h2
      · exfalso
        apply hlt
        rw [h0, norm_zero, zero_div]
        exact ht

/-- The spaces searched. -/
def krylov (A : E →ₗ[ℝ] E) (r : E) (n : Nat) : Submodule ℝ E := Submodule.span ℝ {x | ∃ k < n, x = (A ^ k) r}

theorem GInv.krylov_le {A : E →ₗ[ℝ] E} {r0 : E} {i : Nat} {st : GSt ℝ E} {V : Nat → E} (h : GInv A r0 i (i + 1) st V) : krylov A r0 i ≤ spn V i := by
  have hmap : ∀ k ≤ i, ∀ x ∈ spn V k, A x ∈ spn V (k + 1) := by
    intro k hk x hx
    unfold spn at hx
    induction hx using Submodule.span_induction with
    | mem x hx =>
      obtain ⟨j, hj, rfl⟩ := hx
      rw [h.R j (by omega)]
      refine Submodule.sum_mem _ fun l hl => Submodule.smul_mem _ _ (spn_mono ?_ (gv_mem _ _ _ l))
      have := Finset.mem_range.1 hl
      omega
    | zero => rw [map_zero]; exact Submodule.zero_mem _
    | add x y _ _ h1 h2 => rw [map_add]; exact Submodule.add_mem _ h1 h2
    | smul a x _ h1 => rw [map_smul]; exact Submodule.smul_mem _ _ h1
  have hp : ∀ k ≤ i, (A ^ k) r0 ∈ spn V (k + 1) := by
    intro k
    induction k with
    | zero => intro _; rw [pow_zero, Module.End.one_apply, h.v0]; exact Submodule.smul_mem _ _ (spn_mem (by omega))
    | succ k ih => intro hk; rw [pow_succ', Module.End.mul_apply]; exact hmap (k + 1) (by omega) _ (ih (by omega))
  refine Submodule.span_le.2 ?_
  rintro x ⟨k, hk, rfl⟩
  exact spn_mono (by omega) (hp k (by omega))

theorem GInv.le_finrank [FiniteDimensional ℝ E] {A : E →ₗ[ℝ] E} {r0 : E} {i nv : Nat} {st : GSt ℝ E} {V : Nat → E} (h : GInv A r0 i nv st V) : nv ≤ Module.finrank ℝ E := by
  have ho : Orthonormal ℝ (fun k : Fin nv => V k) := by
    rw [orthonormal_iff_ite]
    intro a b
    rw [h.on a a.2 b b.2]
    simp [Fin.ext_iff]
  have := ho.linearIndependent.fintype_card_le_finrank
  simpa using this

/-- The start of a round. -/
theorem start_ginv {A : E →ₗ[ℝ] E} {r : E} (hr : ‖r‖ ≠ 0) (st : GSt ℝ E) :
    GInv A r 0 1 { st with v := Function.update st.v 0 (some (((1 / ‖r‖ : ℝ) : ℝ) • r)), s := fun k => if k = 0 then ‖r‖ else 0 } (fun _ => (1 / ‖r‖) • r) := by
  have hr' : ‖r‖ • (1 / ‖r‖) • r = r := by rw [smul_smul, mul_one_div, div_self hr, one_smul]
  constructor
  · intro k hk
    obtain rfl : k = 0 := by omega
    dsimp only
    rw [Function.update_self]
  · intro a ha b hb
    obtain rfl : a = 0 := by omega
    obtain rfl : b = 0 := by omega
    rw [if_pos rfl, real_inner_smul_left, real_inner_smul_right, real_inner_self_eq_norm_sq]
    field_simp
  · intro k hk; omega
  · intro k hk; omega
  · intro k hk; omega
  · rw [Finset.sum_range_zero, zero_add, pv]; exact hr'.symm
  · intro k hk
    dsimp only
    rw [if_neg (by omega)]
  · exact hr'.symm

/-- The outer loop. -/
theorem gouter_ok {A : E →ₗ[ℝ] E} (hA : Function.Injective A) {b : E} {normb : ℝ} (hb : 0 < normb) {o : GOpts} (ht : 0 < o.tol) (hm : 0 < o.m) (fuel : Nat) :
    ∀ {left : Nat} {x : E} {st : GSt ℝ E}, left < fuel → o.tol ≤ ‖b - A x‖ / normb →
    ∃ x', gouter A Real.sqrt b normb o fuel left x (b - A x) st = some (.ok x') ∧ ‖b - A x'‖ ≤ ‖b - A x‖ ∧
      (left ≤ o.m → ‖b - A x'‖ / normb < o.tol ∨ ∀ z ∈ krylov A (b - A x) left, ‖b - A x'‖ ≤ ‖b - A (x + z)‖) ∧
      (FiniteDimensional ℝ E → Module.finrank ℝ E ≤ min o.m left → ‖b - A x'‖ / normb < o.tol) := by
  induction fuel with
  | zero => intro left x st h; omega
  | succ fuel ih =>
    intro left x st hl hres
    have hr : ‖b - A x‖ ≠ 0 := by
      intro h0; rw [h0, zero_div] at hres; linarith
    rw [gouter]
    by_cases hl0 : left = 0
    · rw [if_pos hl0]
      subst hl0
      refine ⟨x, rfl, le_refl _, fun _ => Or.inr ?_, ?_⟩
      · intro z hz
        have : krylov A (b - A x) 0 = ⊥ := by
          unfold krylov
          rw [show {y | ∃ k < 0, y = (A ^ k) (b - A x)} = (∅ : Set E) by ext; simp, Submodule.span_empty]
        rw [this, Submodule.mem_bot] at hz
        rw [hz, add_zero]
      · intro _ hf
        exfalso
        have h0 : Module.finrank ℝ E = 0 := by omega
        have := Module.finrank_zero_iff.1 h0
        exact hr (by rw [Subsingleton.elim (b - A x) 0, norm_zero])
    · rw [if_neg hl0, if_neg hr]
      obtain ⟨st', i', done, V', e, hc⟩ := gcycle_ok hA (normb := normb) ht (min o.m left) (start_ginv (A := A) hr st)
      simp only [RCLike.ofReal_real_eq_id, id_eq] at e ⊢
      rw [e]
      dsimp only
      have hinv : ∃ nv, i' ≤ nv ∧ GInv A (b - A x) i' nv st' V' ∧ (nv = i' + 1 ∨ st'.s i' = 0) := by
        rcases hc with ⟨-, -, h⟩ | ⟨-, -, h | ⟨h, h0⟩⟩
        · exact ⟨i' + 1, by omega, h, Or.inl rfl⟩
        · exact ⟨i' + 1, by omega, h, Or.inl rfl⟩
        · exact ⟨i', le_refl _, h, Or.inr h0⟩
      obtain ⟨nv, hnv, hinv, hor⟩ := hinv
      obtain ⟨z, ez, hz, hrz⟩ := hinv.update_ok hnv x
      rw [ez]
      dsimp only
      have hAz : b - A (x + z) = (b - A x) - A z := by rw [map_add]; abel
      have hnorm : ‖b - A (x + z)‖ = |st'.s i'| := by
        rw [hAz, hrz, norm_smul, Real.norm_eq_abs]
        rcases hor with rfl | h0
        · rw [hinv.p_norm, mul_one]
        · rw [h0]; simp
      have hle : ‖b - A (x + z)‖ ≤ ‖b - A x‖ := by
        rw [hnorm]
        rcases hor with rfl | h0
        · have := hinv.minimal (Submodule.zero_mem _)
          rwa [map_zero, sub_zero] at this
        · rw [h0, abs_zero]; exact norm_nonneg _
      rcases hc with ⟨rfl, rfl, hg⟩ | ⟨rfl, hlt, -⟩
      · simp only [Bool.false_eq_true, if_false]
        have hfin : ∀ _ : FiniteDimensional ℝ E, ¬Module.finrank ℝ E ≤ min o.m left := by
          intro _ hf
          have := hg.le_finrank
          omega
        split
        · rename_i hlt
          exact ⟨_, rfl, hle, fun _ => Or.inl hlt, fun _ _ => hlt⟩
        · rename_i hlt
          obtain ⟨x', e', h1, h2, h3⟩ := ih (left := left - min o.m left) (x := x + z) (st := st') (by omega) (not_lt.1 hlt)
          refine ⟨x', e', le_trans h1 hle, ?_, fun hF hf => absurd hf (hfin hF)⟩
          intro hlm
          right
          intro y hy
          refine le_trans h1 ?_
          have hmin : min o.m left = left := by omega
          rw [hmin, Nat.zero_add] at hg hnorm
          have := hg.minimal (hg.krylov_le hy)
          rw [hnorm, show b - A (x + y) = b - A x - A y by rw [map_add]; abel]
          exact this
      · simp only [if_true]
        refine ⟨_, rfl, hle, fun _ => Or.inl ?_, fun _ _ => ?_⟩ <;> rw [hnorm] <;> exact hlt

/-- **C70** (real numbers, partial). For an injective real matrix `gmres` ends normally, its result has a residual not larger than the initial guess, and if there is no restart the
residual is below the tolerance or the smallest one possible in the Krylov space of `MaxIter` dimensions. Missing: complex numbers, for which it is false. -/
theorem C70_residual_partial {A : E →ₗ[ℝ] E} (hA : Function.Injective A) (b x : E) {o : GOpts} (ht : 0 < o.tol) (hm : 0 < o.m) (st : GSt ℝ E) {fuel : Nat} (hf : o.maxIter < fuel) :
    ∃ x', gmres A Real.sqrt b x o st fuel = some (.ok x') ∧ ‖b - A x'‖ ≤ ‖b - A x‖ ∧
      (o.maxIter ≤ o.m → ‖b - A x'‖ ≤ o.tol * (if ‖b‖ = 0 then 1 else ‖b‖) ∨ ∀ z ∈ krylov A (b - A x) o.maxIter, ‖b - A x'‖ ≤ ‖b - A (x + z)‖) := by
  unfold gmres
  have hb : 0 < (if ‖b‖ = 0 then 1 else ‖b‖) := by
    split
    · exact one_pos
    · rename_i h; exact lt_of_le_of_ne (norm_nonneg _) (Ne.symm h)
  generalize (if ‖b‖ = 0 then (1 : ℝ) else ‖b‖) = nb at hb
  dsimp only
  split
  · rename_i h
    exact ⟨x, rfl, le_refl _, fun _ => Or.inl ((div_le_iff₀ hb).1 h)⟩
  · rename_i h
    obtain ⟨x', e, h1, h2, -⟩ := gouter_ok hA hb ht hm fuel (st := st) hf (not_le.1 h).le
    refine ⟨x', e, h1, fun hl => (h2 hl).imp (fun h => ?_) id⟩
    exact ((div_lt_iff₀ hb).1 h).le

/-- **C70** (real numbers, partial). With at least as many iterations as dimensions and without an earlier restart, `gmres` solves the equation to the tolerance asked for. -/
theorem C70_solves_partial [FiniteDimensional ℝ E] {A : E →ₗ[ℝ] E} (hA : Function.Injective A) (b x : E) {o : GOpts} (ht : 0 < o.tol) (hm : 0 < o.m)
    (hd : Module.finrank ℝ E ≤ o.m) (hd' : Module.finrank ℝ E ≤ o.maxIter) (st : GSt ℝ E) {fuel : Nat} (hf : o.maxIter < fuel) :
    ∃ x', gmres A Real.sqrt b x o st fuel = some (.ok x') ∧ ‖b - A x'‖ ≤ o.tol * (if ‖b‖ = 0 then 1 else ‖b‖) := by
  unfold gmres
  have hb : 0 < (if ‖b‖ = 0 then 1 else ‖b‖) := by
    split
    · exact one_pos
    · rename_i h; exact lt_of_le_of_ne (norm_nonneg _) (Ne.symm h)
  generalize (if ‖b‖ = 0 then (1 : ℝ) else ‖b‖) = nb at hb
  dsimp only
  split
  · rename_i h
    exact ⟨x, rfl, (div_le_iff₀ hb).1 h⟩
  · rename_i h
    obtain ⟨x', e, -, -, h3⟩ := gouter_ok hA hb ht hm fuel (st := st) hf (not_le.1 h).le
    exact ⟨x', e, ((div_lt_iff₀ hb).1 (h3 inferInstance (le_min hd hd'))).le⟩

end Real

/-- The step of `C70_complex_counterexample`. -/
theorem complex_step (sq : ℂ → ℂ) (hs : sq (3 / 4) ≠ 0) (st : GSt ℂ ℂ) (hv : st.v 0 = some 1) (h0 : st.s 0 = 1) (h1 : st.s 1 = 0) :
    ∃ st', gstep (fun z : ℂ => Complex.I * z) sq 0 st = .ok st' ∧ st'.v 0 = some 1 ∧ st'.H 0 0 = 5 / 2 * (starRingEnd ℂ) (1 / sq (3 / 4)) ∧
      st'.s 0 = Complex.I / 2 * (starRingEnd ℂ) (1 / sq (3 / 4)) := by
  unfold gstep
  rw [hv]
  simp only [mul_one, zero_add, mgs, Res.bind_ok, hv]
  have hin : inner ℂ Complex.I (1 : ℂ) = -Complex.I := by simp [RCLike.inner_apply]
  have hw : Complex.I - inner ℂ Complex.I (1 : ℂ) • (1 : ℂ) = 2 * Complex.I := by rw [hin]; simp; ring
  have hn : ‖2 * Complex.I‖ = 2 := by simp
  rw [hw, hn, hin]
  simp only [rotCol, Function.update_self]
  have e1 : (Function.update (Function.update (fun k => st.H k 0) 0 (-Complex.I)) 1 (((2 : ℝ) : ℂ))) 0 = -Complex.I := by
    rw [Function.update_of_ne (by omega), Function.update_self]
  have e2 : rotGen sq (-Complex.I) ((2 : ℝ) : ℂ) = .ok (-Complex.I / 2 * (1 / sq (3 / 4)), 1 / sq (3 / 4)) := by
    unfold rotGen
    have t : (1 : ℂ) + -Complex.I / ((2 : ℝ) : ℂ) * (-Complex.I / ((2 : ℝ) : ℂ)) = 3 / 4 := by
      push_cast
      have : -Complex.I / 2 * (-Complex.I / 2) = Complex.I * Complex.I / 4 := by ring
      rw [this, Complex.I_mul_I]; norm_num
    rw [if_neg (by norm_num), if_pos (by simp)]
    dsimp only
    rw [t, if_neg hs]
    push_cast
    rfl
  rw [show (RCLike.ofReal (2 : ℝ) : ℂ) = ((2 : ℝ) : ℂ) from rfl] at *
  rw [e1, e2]
  simp only [Res.bind_ok]
  refine ⟨_, rfl, ?_, ?_, ?_⟩
  · dsimp only
    rw [if_neg (by norm_num), Function.update_of_ne (by omega), hv]
  · simp only [if_true]
    rw [Function.update_of_ne (by omega), Function.update_self]
    simp only [rotApp]
    have hc : (starRingEnd ℂ) (-Complex.I / 2 * (1 / sq (3 / 4))) = Complex.I / 2 * (starRingEnd ℂ) (1 / sq (3 / 4)) := by
      rw [map_mul, map_div₀, map_neg, Complex.conj_I, neg_neg, map_ofNat]
    rw [hc]
    push_cast
    have : Complex.I / 2 * (starRingEnd ℂ) (1 / sq (3 / 4)) * -Complex.I = -(Complex.I * Complex.I) / 2 * (starRingEnd ℂ) (1 / sq (3 / 4)) := by ring
    rw [this, Complex.I_mul_I]
    ring
  · dsimp only
    rw [Function.update_of_ne (by omega), Function.update_self]
    simp only [rotApp]
    have hc : (starRingEnd ℂ) (-Complex.I / 2 * (1 / sq (3 / 4))) = Complex.I / 2 * (starRingEnd ℂ) (1 / sq (3 / 4)) := by
      rw [map_mul, map_div₀, map_neg, Complex.conj_I, neg_neg, map_ofNat]
    rw [hc, h0, h1]
    ring

/-- **C70** (counterexample). Complex numbers: for the equation `i x = 1` in one dimension, with the initial guess 0 and the default of one iteration, `gmres` returns `i/5`; the residual
has grown from 1 to 6/5. -/
theorem C70_complex_counterexample (sq : ℂ → ℂ) (hs : sq (3 / 4) ≠ 0) (st : GSt ℂ ℂ) :
    gmres (fun z : ℂ => Complex.I * z) sq 1 0 ⟨1, 1, 1 / 10 ^ 14⟩ st 2 = some (.ok (Complex.I / 5)) ∧
      ‖(1 : ℂ) - Complex.I * 0‖ = 1 ∧ ‖(1 : ℂ) - Complex.I * (Complex.I / 5)‖ = 6 / 5 := by
  refine ⟨?_, by simp, ?_⟩
  · have hr : (1 : ℂ) - Complex.I * 0 = 1 := by simp
    unfold gmres
    simp only [hr, norm_one, one_ne_zero, if_false, div_one]
    rw [if_neg (by norm_num), gouter, if_neg (by omega), if_neg (by simp)]
    simp only [norm_one, div_one, RCLike.ofReal_one, one_smul, min_self]
    obtain ⟨st', e, e1, e2, e3⟩ := complex_step sq hs ⟨Function.update st.v 0 (some 1), st.H, fun k => if k = 0 then 1 else 0, st.cs, st.sn⟩
      (by dsimp only; rw [Function.update_self]) rfl rfl
    have hcy : ∃ d, gcycle (fun z : ℂ => Complex.I * z) sq 1 (1 / 10 ^ 14) 1 0 ⟨Function.update st.v 0 (some 1), st.H, fun k => if k = 0 then 1 else 0, st.cs, st.sn⟩ = .ok (st', 1, d) := by
      rw [gcycle, e, Res.bind_ok]
      split
      · exact ⟨true, rfl⟩
      · exact ⟨false, rfl⟩
    obtain ⟨d, hd⟩ := hcy
    rw [hd]
    dsimp only
    have hq : (starRingEnd ℂ) (1 / sq (3 / 4)) ≠ 0 := by
      rw [Ne, map_eq_zero]
      exact one_div_ne_zero hs
    have hup : gupdate (0 : ℂ) 1 st' = .ok (Complex.I / 5) := by
      unfold gupdate
      have hH : st'.H 0 0 ≠ 0 := by rw [e2]; exact mul_ne_zero (by norm_num) hq
      rw [backsolve, if_neg hH, backsolve, Res.bind_ok, addAll, addAll, Res.bind_ok, e1]
      simp only [if_true, e2, e3, zero_add, smul_eq_mul, mul_one]
      congr 1
      field_simp
    rw [hup]
    dsimp only
    split
    · rfl
    · split
      · rfl
      · rw [gouter, if_pos (by simp)]
  · have : (1 : ℂ) - Complex.I * (Complex.I / 5) = ((6 / 5 : ℝ) : ℂ) := by
      have : Complex.I * (Complex.I / 5) = Complex.I * Complex.I / 5 := by ring
      rw [this, Complex.I_mul_I]; push_cast; norm_num
    rw [this, Complex.norm_real]
    norm_num

/-- **C70** (counterexample). If the matrix is not invertible `gmres` can divide by zero: the matrix 0. -/
theorem C70_singular_counterexample {E : Type*} [NormedAddCommGroup E] [InnerProductSpace ℝ E] {b : E} (hb : ‖b‖ = 1) (o : GOpts) (ho : 0 < o.tol) (ho1 : o.tol < 1) (hm : 0 < o.m)
    (hi : 0 < o.maxIter) (st : GSt ℝ E) (fuel : Nat) : gmres (fun _ : E => 0) Real.sqrt b 0 o st (fuel + 1) = some .ub := by
  unfold gmres
  simp only [sub_zero, hb, one_ne_zero, if_false, div_one]
  rw [if_neg (not_le.2 ho1), gouter, if_neg (by omega), if_neg (by rw [hb]; exact one_ne_zero)]
  obtain ⟨k, hk⟩ : ∃ k, min o.m o.maxIter = k + 1 := ⟨min o.m o.maxIter - 1, by omega⟩
  simp only [hk, hb, div_one, RCLike.ofReal_one, one_smul]
  have e : ∃ st', gstep (fun _ : E => (0 : E)) Real.sqrt 0 ⟨Function.update st.v 0 (some b), st.H, fun k => if k = 0 then 1 else 0, st.cs, st.sn⟩ = .ok st' ∧ st'.s 1 = 0 ∧ st'.H 0 0 = 0 := by
    unfold gstep
    simp only [Function.update_self, mgs, Res.bind_ok, inner_zero_left, zero_smul, sub_self, norm_zero, rotCol, RCLike.ofReal_zero, rotGen, if_true]
    refine ⟨_, rfl, ?_, ?_⟩
    · simp [rotApp]
    · simp [rotApp]
  obtain ⟨st', e, e1, e2⟩ := e
  rw [gcycle, e, Res.bind_ok, zero_add, e1, norm_zero, zero_div, if_pos ho]
  simp only [gupdate, backsolve, e2, if_true, Res.bind]

/-- **C70** (counterexample). With `RestartIter` 0 the loop does not end. -/
theorem C70_restart_counterexample {E : Type*} [NormedAddCommGroup E] [InnerProductSpace ℝ E] (A : E →ₗ[ℝ] E) {b : E} (hb : ‖b‖ = 1) (tol : ℝ) (ho1 : tol < 1) (maxIter : Nat)
    (hi : 0 < maxIter) (st : GSt ℝ E) (fuel : Nat) : gmres A Real.sqrt b 0 ⟨maxIter, 0, tol⟩ st fuel = none := by
  unfold gmres
  simp only [map_zero, sub_zero, hb, one_ne_zero, if_false, div_one]
  rw [if_neg (not_le.2 ho1)]
  induction fuel generalizing st with
  | zero => rfl
  | succ fuel ih =>
    rw [gouter, if_neg (by omega), if_neg (by rw [hb]; exact one_ne_zero)]
    simp only [Nat.zero_min, gcycle, gupdate, backsolve, Res.bind, addAll, Bool.false_eq_true, if_false, map_zero, sub_zero, hb, div_one, Nat.sub_zero]
    rw [if_neg (not_lt.2 ho1.le)]
    exact ih _

/-- The square root of the standard library meets the hypothesis of `C70_complex_counterexample`. -/
example (st : GSt ℂ ℂ) : gmres (fun z : ℂ => Complex.I * z) (fun z => z ^ (1 / 2 : ℂ)) 1 0 ⟨1, 1, 1 / 10 ^ 14⟩ st 2 = some (.ok (Complex.I / 5)) :=
  (C70_complex_counterexample (fun z => z ^ (1 / 2 : ℂ)) (by simp [Complex.cpow_eq_zero_iff]) st).1

/-- `C70_solves_partial` for a matrix which is not symmetric: a quarter turn of the plane, from any initial guess. -/
example (b x : EuclideanSpace ℝ (Fin 2)) (st : GSt ℝ (EuclideanSpace ℝ (Fin 2))) :
    ∃ x', gmres (Matrix.toEuclideanLin !![(0 : ℝ), -1; 1, 0]) Real.sqrt b x ⟨2, 2, 1 / 10 ^ 14⟩ st 3 = some (.ok x') ∧
      ‖b - Matrix.toEuclideanLin !![(0 : ℝ), -1; 1, 0] x'‖ ≤ 1 / 10 ^ 14 * (if ‖b‖ = 0 then 1 else ‖b‖) := by
  refine C70_solves_partial (o := ⟨2, 2, 1 / 10 ^ 14⟩) ?_ b x (by norm_num) (by decide) (by simp) (by simp) st (by decide)
  intro y z h
  have h0 := congrArg (fun w => w.ofLp 0) h
  have h1 := congrArg (fun w => w.ofLp 1) h
  simp [Matrix.toLpLin_apply, Matrix.mulVec, dotProduct] at h0 h1
  ext i
  fin_cases i <;> assumption

end Verif.Solvers
