import Verif.Expo.ApplyExp
import Verif.Expo.ApplyExpOps

/-!
# The two ends of the Lanczos method
-/

noncomputable section

namespace Verif.Expo

open scoped Nat
open NormedSpace

variable {𝕜 E : Type*} [RCLike 𝕜] [NormedAddCommGroup E] [InnerProductSpace 𝕜 E]

/-- The linear combination of the first `n` vectors. -/
def Vl (𝕜 : Type*) [RCLike 𝕜] {E : Type*} [NormedAddCommGroup E] [InnerProductSpace 𝕜 E] (u : Nat → E) (n : Nat) : (Fin n → 𝕜) →ₗ[𝕜] E :=
  ∑ i : Fin n, (LinearMap.proj i).smulRight (u i)

theorem Vl_apply (u : Nat → E) (n : Nat) (x : Fin n → 𝕜) : Vl 𝕜 u n x = ∑ i : Fin n, x i • u i := by simp [Vl]

/-- The first unit vector. -/
def e0 (𝕜 : Type*) [RCLike 𝕜] (n : Nat) : Fin n → 𝕜 := fun i => if i.val = 0 then 1 else 0

theorem Vl_e0 (u : Nat → E) (n : Nat) (hn : 0 < n) : Vl 𝕜 u n (e0 𝕜 n) = u 0 := by
  rw [Vl_apply, Finset.sum_eq_single (⟨0, hn⟩ : Fin n)]
  · simp [e0]
  · intro b _ hb
    have : b.val ≠ 0 := fun h => hb (Fin.ext h)
    simp [e0, this]
  · intro h; exact absurd (Finset.mem_univ _) h

theorem mulVec_e0 {n : Nat} (X : Matrix (Fin n) (Fin n) 𝕜) (i : Fin n) : X.mulVec (e0 𝕜 n) i = col0 X i := by
  have hn : 0 < n := lt_of_le_of_lt (Nat.zero_le _) i.2
  rw [Matrix.mulVec, dotProduct, Finset.sum_eq_single (⟨0, hn⟩ : Fin n)]
  · simp [e0, col0]
  · intro b _ hb
    have : b.val ≠ 0 := fun h => hb (Fin.ext h)
    simp [e0, this]
  · intro h; exact absurd (Finset.mem_univ _) h

/-- Vectors orthonormal up to number `n`. -/
def ONup (𝕜 : Type*) [RCLike 𝕜] {E : Type*} [NormedAddCommGroup E] [InnerProductSpace 𝕜 E] (v : Nat → E) (n : Nat) : Prop :=
  ∀ a b, a < n → b < n → inner 𝕜 (v a) (v b) = if a = b then 1 else 0

/-- The space of the first `n` vectors. -/
def Un (𝕜 : Type*) [RCLike 𝕜] {E : Type*} [NormedAddCommGroup E] [InnerProductSpace 𝕜 E] (v : Nat → E) (n : Nat) : Submodule 𝕜 E :=
  Submodule.span 𝕜 (Set.range fun i : Fin n => v i)

instance (v : Nat → E) (n : Nat) : FiniteDimensional 𝕜 (Un 𝕜 v n) := FiniteDimensional.span_of_finite 𝕜 (Set.finite_range _)

theorem mem_Un (v : Nat → E) {n i : Nat} (h : i < n) : v i ∈ Un 𝕜 v n := Submodule.subset_span ⟨⟨i, h⟩, rfl⟩

theorem ortho_Un (v : Nat → E) (n : Nat) (w : E) (h : ∀ r < n, inner 𝕜 (v r) w = 0) : w ∈ (Un 𝕜 v n)ᗮ := by
  have h1 : Un 𝕜 v n ≤ (Submodule.span 𝕜 {w})ᗮ := by
    refine Submodule.span_le.2 ?_
    rintro _ ⟨i, rfl⟩
    exact (Submodule.mem_orthogonal_singleton_iff_inner_left).2 (h i i.2)
  intro u hu
  exact (Submodule.mem_orthogonal_singleton_iff_inner_left).1 (h1 hu)

theorem P_in (v : Nat → E) {n i : Nat} (h : i < n) : (Un 𝕜 v n).starProjection (v i) = v i := Submodule.starProjection_eq_self_iff.2 (mem_Un v h)

theorem P_out (v : Nat → E) {n : Nat} {w : E} (h : ∀ r < n, inner 𝕜 (v r) w = 0) : (Un 𝕜 v n).starProjection w = 0 :=
  (Submodule.starProjection_apply_eq_zero_iff _).2 (ortho_Un v n w h)

theorem inner_Vl {v : Nat → E} {n : Nat} (ho : ONup 𝕜 v n) {u : Nat → E} {k : Nat} (hu : ∀ i < k, (i < n ∧ u i = v i) ∨ u i = 0) {j : Nat} (hj : j < n) (hjk : j < k) (huj : u j = v j) (x : Fin k → 𝕜) :
    inner 𝕜 (v j) (Vl 𝕜 u k x) = x ⟨j, hjk⟩ := by
  rw [Vl_apply, inner_sum, Finset.sum_eq_single (⟨j, hjk⟩ : Fin k)]
  · rw [inner_smul_right, huj, ho j j hj hj, if_pos rfl, mul_one]
  · intro b _ hb
    have hne : j ≠ b.val := fun h => hb (Fin.ext h.symm)
    rw [inner_smul_right]
    rcases hu b b.2 with ⟨h1, h2⟩ | h
    · rw [h2, ho j b hj h1, if_neg hne, mul_zero]
    · rw [h, inner_zero_right, mul_zero]
  · intro h; exact absurd (Finset.mem_univ _) h

variable [CompleteSpace E]

omit [CompleteSpace E] in
theorem ONup.norm {v : Nat → E} {n : Nat} (ho : ONup 𝕜 v n) {i : Nat} (hi : i < n) : ‖v i‖ = 1 := by
  have h := inner_self_eq_norm_sq_to_K (𝕜 := 𝕜) (v i)
  rw [ho i i hi hi, if_pos rfl] at h
  have : ‖v i‖ ^ 2 = 1 := by exact_mod_cast h.symm
  exact (pow_eq_one_iff_of_nonneg (norm_nonneg _) (by norm_num)).1 this

omit [CompleteSpace E] in
theorem norm_comp_le (P H : E →L[𝕜] E) (hP : ‖P‖ ≤ 1) : ‖P * H * P‖ ≤ ‖H‖ ∧ ‖H * P‖ ≤ ‖H‖ := by
  have h2 : ‖H * P‖ ≤ ‖H‖ := (norm_mul_le _ _).trans (by nlinarith [norm_nonneg H, norm_nonneg P])
  refine ⟨?_, h2⟩
  rw [mul_assoc]
  exact (norm_mul_le _ _).trans (by nlinarith [norm_nonneg (H * P), norm_nonneg P])

omit [CompleteSpace E] in
theorem smul_smul_op (s : ℝ) (τ : 𝕜) (K : E →L[𝕜] E) : (s : 𝕜) • (τ • K) = ((s : 𝕜) * τ) • K := smul_smul _ _ _

/-- The outcome when the Lanczos sequence is exhausted: `w` is what is left over. -/
theorem exhausted (H : E →L[𝕜] E) (hH : IsSelfAdjoint H) (v : Nat → E) (j : Nat) (T : Nat → Nat → ℝ) (w : E) (τ : 𝕜) (ho : ONup 𝕜 v (j + 1))
    (hv : ∀ i < j + 1, H (v i) = (∑ r ∈ Finset.range (j + 1), (T r i : 𝕜) • v r) + if i = j then w else 0) (hw : ∀ r < j + 1, inner 𝕜 (v r) w = 0) :
    let out := Vl 𝕜 v (j + 1) ((exp (τ • subMat 𝕜 T (j + 1))).mulVec (e0 𝕜 (j + 1)))
    ‖out - exp (τ • H) (v 0)‖ ≤ ‖τ‖ * ‖w‖ * Real.exp (‖τ‖ * ‖H‖) ∧ (RCLike.re τ = 0 → ‖out‖ = 1 ∧ ‖out - exp (τ • H) (v 0)‖ ≤ ‖τ‖ * ‖w‖) := by
  intro out
  have : Nontrivial E := ⟨v 0, 0, fun h => by have := ho.norm (i := 0) (by omega); rw [h, norm_zero] at this; exact zero_ne_one this⟩
  obtain ⟨P, hPd⟩ : ∃ P, P = (Un 𝕜 v (j + 1)).starProjection := ⟨_, rfl⟩
  have hPn : ‖P‖ ≤ 1 := by rw [hPd]; exact Submodule.starProjection_norm_le _
  have hPin : ∀ i < j + 1, P (v i) = v i := fun i hi => by rw [hPd]; exact P_in v hi
  have hPw : P w = 0 := by rw [hPd]; exact P_out v hw
  have hPs : IsSelfAdjoint P := by rw [hPd]; exact isSelfAdjoint_starProjection _
  obtain ⟨K, hK⟩ : ∃ K, K = P * H * P := ⟨_, rfl⟩
  have hKn : ‖K‖ ≤ ‖H‖ := by rw [hK]; exact (norm_comp_le P H hPn).1
  have hKs : IsSelfAdjoint K := by
    have := hH.conjugate_self hPs
    rw [hK]; exact this
  have hKi : ∀ i < j + 1, K (v i) = ∑ r ∈ Finset.range (j + 1), (T r i : 𝕜) • v r := by
    intro i hi
    rw [hK, mul_apply_eq_comp, mul_apply_eq_comp, hPin i hi, hv i hi, map_add, map_sum]
    have e1 : P (if i = j then w else 0) = 0 := by split <;> simp [hPw]
    rw [e1, add_zero]
    refine Finset.sum_congr rfl fun r hr => ?_
    rw [map_smul, hPin r (Finset.mem_range.1 hr)]
  have hKV : ∀ x, K (Vl 𝕜 v (j + 1) x) = Vl 𝕜 v (j + 1) ((subMat 𝕜 T (j + 1)).mulVec x) := by
    intro x
    rw [Vl_apply, Vl_apply, map_sum]
    have e1 : ∀ i : Fin (j + 1), K (x i • v i) = ∑ r : Fin (j + 1), (subMat 𝕜 T (j + 1) r i * x i) • v r := by
      intro i
      rw [map_smul, hKi i i.2, Finset.smul_sum, Finset.sum_range]
      refine Finset.sum_congr rfl fun r _ => ?_
      rw [smul_smul, subMat, mul_comm]
    rw [Finset.sum_congr rfl fun i _ => e1 i, Finset.sum_comm]
    refine Finset.sum_congr rfl fun r _ => ?_
    rw [← Finset.sum_smul]; rfl
  have hint : ∀ c : 𝕜, exp (c • K) (v 0) = Vl 𝕜 v (j + 1) ((exp (c • subMat 𝕜 T (j + 1))).mulVec (e0 𝕜 (j + 1))) := by
    intro c
    rw [← exp_intertwine (Vl 𝕜 v (j + 1)) (c • K) (c • subMat 𝕜 T (j + 1)) (fun x => by rw [smul_apply, hKV, Matrix.smul_mulVec, map_smul]), Vl_e0 _ _ (by omega)]
  have hout : out = exp (τ • K) (v 0) := (hint τ).symm
  have hres : ∀ c : 𝕜, (H - K) (exp (c • K) (v 0)) = (inner 𝕜 (v j) (exp (c • K) (v 0))) • w := by
    intro c
    rw [hint c]
    generalize (exp (c • subMat 𝕜 T (j + 1))).mulVec (e0 𝕜 (j + 1)) = y
    rw [inner_Vl ho (fun i hi => Or.inl ⟨hi, rfl⟩) (Nat.lt_succ_self j) (Nat.lt_succ_self j) rfl, Vl_apply, map_sum, Finset.sum_eq_single (⟨j, Nat.lt_succ_self j⟩ : Fin (j + 1))]
    · rw [map_smul, sub_apply, hv j (by omega), hKi j (by omega), if_pos rfl, add_sub_cancel_left]
    · intro b _ hb
      have : b.val ≠ j := fun h => hb (Fin.ext h)
      rw [map_smul, sub_apply, hv b b.2, hKi b b.2, if_neg this, add_zero, sub_self, smul_zero]
    · intro h; exact absurd (Finset.mem_univ _) h
  have hv0 := ho.norm (i := 0) (by omega)
  have hvj := ho.norm (i := j) (by omega)
  have hBC : ∀ s : ℝ, (τ • H - τ • K) (exp ((s : 𝕜) • (τ • K)) (v 0)) = τ • ((inner 𝕜 (v j) (exp (((s : 𝕜) * τ) • K) (v 0))) • w) := by
    intro s
    rw [smul_smul_op, ← smul_sub, smul_apply, hres]
  have hcomp : ∀ c : 𝕜, ‖inner 𝕜 (v j) (exp (c • K) (v 0))‖ ≤ ‖exp (c • K) (v 0)‖ := fun c => (norm_inner_le_norm _ _).trans (by rw [hvj, one_mul])
  constructor
  · rw [norm_sub_rev, hout]
    refine duhamel (τ • H) (τ • K) (v 0) _ fun s h0 h1 => ?_
    rw [hBC s, smul_smul_op]
    have n1 : ‖exp ((((1 - s : ℝ) : 𝕜) * τ) • H)‖ ≤ Real.exp ((1 - s) * (‖τ‖ * ‖H‖)) := by
      refine (norm_exp_smul H _).trans (le_of_eq ?_)
      rw [norm_mul, RCLike.norm_ofReal, abs_of_nonneg (by linarith), mul_assoc]
    have n2 : ‖exp (((s : 𝕜) * τ) • K) (v 0)‖ ≤ Real.exp (s * (‖τ‖ * ‖H‖)) := by
      refine ((exp (((s : 𝕜) * τ) • K)).le_opNorm _).trans ?_
      rw [hv0, mul_one]
      refine (norm_exp_smul K _).trans (Real.exp_le_exp.2 ?_)
      rw [norm_mul, RCLike.norm_ofReal, abs_of_nonneg h0, mul_assoc]
      gcongr
    refine (ContinuousLinearMap.le_opNorm _ _).trans ?_
    rw [norm_smul, norm_smul]
    calc _ ≤ Real.exp ((1 - s) * (‖τ‖ * ‖H‖)) * (‖τ‖ * (Real.exp (s * (‖τ‖ * ‖H‖)) * ‖w‖)) := by
          gcongr
          exact (hcomp _).trans n2
      _ = ‖τ‖ * ‖w‖ * (Real.exp ((1 - s) * (‖τ‖ * ‖H‖)) * Real.exp (s * (‖τ‖ * ‖H‖))) := by ring
      _ = _ := by rw [← Real.exp_add]; congr 2; ring
  · intro hτ
    refine ⟨by rw [hout, exp_skew_norm K hKs τ hτ, hv0], ?_⟩
    rw [norm_sub_rev, hout]
    refine duhamel (τ • H) (τ • K) (v 0) _ fun s h0 h1 => ?_
    have hre : ∀ r : ℝ, RCLike.re ((r : 𝕜) * τ) = 0 := fun r => by rw [RCLike.re_ofReal_mul, hτ, mul_zero]
    rw [hBC s, smul_smul_op, exp_skew_norm H hH _ (hre _), norm_smul, norm_smul]
    have : ‖inner 𝕜 (v j) (exp (((s : 𝕜) * τ) • K) (v 0))‖ ≤ 1 := (hcomp _).trans (by rw [exp_skew_norm K hKs _ (hre s), hv0])
    gcongr
    exact mul_le_of_le_one_left (norm_nonneg _) this

/-- The outcome when the method stops after `m` steps. -/
theorem stopped (H : E →L[𝕜] E) (hH : IsSelfAdjoint H) (v : Nat → E) (m : Nat) (hm : 1 ≤ m) (T : Nat → Nat → ℝ) (τ : 𝕜) (ho : ONup 𝕜 v (m + 1))
    (hv : ∀ i < m, H (v i) = ∑ r ∈ Finset.range (m + 1), (T r i : 𝕜) • v r) (hT : ∀ r i, i + 1 < r → T r i = 0)
    (hT1 : ∀ r, r ≠ m - 1 → T r m = 0) (hT2 : ∀ r, T r (m + 1) = 0) (u : Nat → E) (hu : ∀ i ≤ m, u i = v i) (hu1 : u (m + 1) = 0) :
    let out := Vl 𝕜 u (m + 2) ((exp (τ • subMat 𝕜 (extMat T m) (m + 2))).mulVec (e0 𝕜 (m + 2)))
    ‖out - exp (τ • H) (v 0)‖ ≤ Real.exp (‖τ‖ * ‖H‖) * ((‖τ‖ * ‖H‖) ^ (m + 1) / (m ! : ℝ)) ∧ (RCLike.re τ = 0 → 1 ≤ ‖out‖) := by
  intro out
  have : Nontrivial E := ⟨v 0, 0, fun h => by have := ho.norm (i := 0) (by omega); rw [h, norm_zero] at this; exact zero_ne_one this⟩
  obtain ⟨P, hPd⟩ : ∃ P, P = (Un 𝕜 v m).starProjection := ⟨_, rfl⟩
  have hPn : ‖P‖ ≤ 1 := by rw [hPd]; exact Submodule.starProjection_norm_le _
  have hPin : ∀ i < m, P (v i) = v i := fun i hi => by rw [hPd]; exact P_in v hi
  have hPm : P (v m) = 0 := by
    rw [hPd]; refine P_out v fun r hr => ?_
    rw [ho r m (by omega) (by omega), if_neg (by omega)]
  have hPs : IsSelfAdjoint P := by rw [hPd]; exact isSelfAdjoint_starProjection _
  have hPP : P * P = P := by rw [hPd]; exact Submodule.isIdempotentElem_starProjection _
  obtain ⟨K, hK⟩ : ∃ K, K = H * P := ⟨_, rfl⟩
  have hKn : ‖K‖ ≤ ‖H‖ := by rw [hK]; exact (norm_comp_le P H hPn).2
  have hKi : ∀ i < m, K (v i) = ∑ r ∈ Finset.range (m + 1), (T r i : 𝕜) • v r := by
    intro i hi
    rw [hK, mul_apply_eq_comp, hPin i hi, hv i hi]
  have hKm : K (v m) = 0 := by rw [hK, mul_apply_eq_comp, hPm, map_zero]
  have hx1 : ∀ r < m + 1, ∀ i < m, extMat T m r i = T r i := by
    intro r hr i hi
    unfold extMat setM
    rw [if_neg (by omega), if_neg (by omega)]
  have hx2 : ∀ r < m + 1, extMat T m r m = 0 := by
    intro r hr
    unfold extMat setM
    rw [if_neg (by omega)]
    split
    · rfl
    · rename_i h
      exact hT1 r (by omega)
  have hx3 : ∀ r < m + 1, extMat T m r (m + 1) = 0 := by
    intro r hr
    unfold extMat setM
    rw [if_neg (by omega), if_neg (by omega), hT2]
  have hKu : ∀ i < m + 2, K (u i) = ∑ r ∈ Finset.range (m + 2), ((extMat T m r i : ℝ) : 𝕜) • u r := by
    intro i hi
    rw [Finset.sum_range_succ, hu1, smul_zero, add_zero]
    have e1 : ∀ r ∈ Finset.range (m + 1), ((extMat T m r i : ℝ) : 𝕜) • u r = ((extMat T m r i : ℝ) : 𝕜) • v r := fun r hr => by
      rw [hu r (by have := Finset.mem_range.1 hr; omega)]
    rw [Finset.sum_congr rfl e1]
    rcases Nat.lt_trichotomy i m with h | h | h
    · rw [hu i h.le, hKi i h]
      refine Finset.sum_congr rfl fun r hr => ?_
      rw [hx1 r (Finset.mem_range.1 hr) i h]
    · subst h
      rw [hu i le_rfl, hKm]
      refine (Finset.sum_eq_zero fun r hr => ?_).symm
      rw [hx2 r (Finset.mem_range.1 hr), RCLike.ofReal_zero, zero_smul]
    · obtain rfl : i = m + 1 := by omega
      rw [hu1, map_zero]
      refine (Finset.sum_eq_zero fun r hr => ?_).symm
      rw [hx3 r (Finset.mem_range.1 hr), RCLike.ofReal_zero, zero_smul]
  have hKV : ∀ x, K (Vl 𝕜 u (m + 2) x) = Vl 𝕜 u (m + 2) ((subMat 𝕜 (extMat T m) (m + 2)).mulVec x) := by
    intro x
    rw [Vl_apply, Vl_apply, map_sum]
    have e1 : ∀ i : Fin (m + 2), K (x i • u i) = ∑ r : Fin (m + 2), (subMat 𝕜 (extMat T m) (m + 2) r i * x i) • u r := by
      intro i
      rw [map_smul, hKu i i.2, Finset.smul_sum, Finset.sum_range]
      refine Finset.sum_congr rfl fun r _ => ?_
      rw [smul_smul, subMat, mul_comm]
    rw [Finset.sum_congr rfl fun i _ => e1 i, Finset.sum_comm]
    refine Finset.sum_congr rfl fun r _ => ?_
    rw [← Finset.sum_smul]; rfl
  have hu0 : u 0 = v 0 := hu 0 (by omega)
  have hint : ∀ c : 𝕜, exp (c • K) (v 0) = Vl 𝕜 u (m + 2) ((exp (c • subMat 𝕜 (extMat T m) (m + 2))).mulVec (e0 𝕜 (m + 2))) := by
    intro c
    rw [← exp_intertwine (Vl 𝕜 u (m + 2)) (c • K) (c • subMat 𝕜 (extMat T m) (m + 2)) (fun x => by rw [smul_apply, hKV, Matrix.smul_mulVec, map_smul]), Vl_e0 _ _ (by omega), hu0]
  have hout : out = exp (τ • K) (v 0) := (hint τ).symm
  have hres : ∀ c : 𝕜, (H - K) (exp (c • K) (v 0)) = (inner 𝕜 (v m) (exp (c • K) (v 0))) • H (v m) := by
    intro c
    rw [hint c]
    generalize (exp (c • subMat 𝕜 (extMat T m) (m + 2))).mulVec (e0 𝕜 (m + 2)) = y
    have hui : ∀ i < m + 2, (i < m + 1 ∧ u i = v i) ∨ u i = 0 := by
      intro i hi
      by_cases h : i < m + 1
      · exact Or.inl ⟨h, hu i (by omega)⟩
      · obtain rfl : i = m + 1 := by omega
        exact Or.inr hu1
    rw [inner_Vl ho hui (Nat.lt_succ_self m) (by omega) (hu m le_rfl), Vl_apply, map_sum, Finset.sum_eq_single (⟨m, by omega⟩ : Fin (m + 2))]
    · rw [map_smul, sub_apply, hu m le_rfl, hKm, sub_zero]
    · intro b _ hb
      have hne : b.val ≠ m := fun h => hb (Fin.ext h)
      rw [map_smul, sub_apply]
      by_cases h : b.val < m
      · rw [hu b h.le, hv b h, hKi b h, sub_self, smul_zero]
      · have hbm : b.val = m + 1 := by have := b.2; omega
        rw [hbm, hu1]; simp
    · intro h; exact absurd (Finset.mem_univ _) h
  have hv0 := ho.norm (i := 0) (by omega)
  have hvm := ho.norm (i := m) (by omega)
  have hpow : ∀ k ≤ m, (K ^ k) (v 0) ∈ Un 𝕜 v (k + 1) := by
    intro k
    induction k with
    | zero => intro _; rw [pow_zero]; exact mem_Un v (by omega)
    | succ k ih =>
      intro hk
      rw [pow_succ', mul_apply_eq_comp]
      have h1 := ih (by omega)
      have h2 : Un 𝕜 v (k + 1) ≤ (Un 𝕜 v (k + 1 + 1)).comap (K : E →ₗ[𝕜] E) := by
        refine Submodule.span_le.2 ?_
        rintro _ ⟨i, rfl⟩
        have hi : i.val < m := by have := i.2; omega
        show K (v i) ∈ Un 𝕜 v (k + 1 + 1)
        rw [hKi i hi]
        refine Submodule.sum_mem _ fun r hr => ?_
        by_cases hri : r ≤ i.val + 1
        · exact Submodule.smul_mem _ _ (mem_Un v (by have := i.2; omega))
        · rw [hT r i (by omega), RCLike.ofReal_zero, zero_smul]; exact Submodule.zero_mem _
      exact h2 h1
  have hcomp0 : ∀ k < m, inner 𝕜 (v m) ((K ^ k) (v 0)) = 0 := by
    intro k hk
    have h1 := hpow k hk.le
    have h2 : v m ∈ (Un 𝕜 v (k + 1))ᗮ := ortho_Un v (k + 1) (v m) fun r hr => by
      rw [ho r m (by omega) (by omega), if_neg (by omega)]
    exact Submodule.inner_left_of_mem_orthogonal h1 h2
  constructor
  · rw [norm_sub_rev, hout]
    refine duhamel (τ • H) (τ • K) (v 0) _ fun s h0 h1 => ?_
    rw [smul_smul_op, smul_smul_op, ← smul_sub, smul_apply, hres]
    have n1 : ‖exp ((((1 - s : ℝ) : 𝕜) * τ) • H)‖ ≤ Real.exp ((1 - s) * (‖τ‖ * ‖H‖)) := by
      refine (norm_exp_smul H _).trans (le_of_eq ?_)
      rw [norm_mul, RCLike.norm_ofReal, abs_of_nonneg (by linarith), mul_assoc]
    have hx : 0 ≤ ‖τ‖ * ‖H‖ := by positivity
    have n2 : ‖inner 𝕜 (v m) (exp (((s : 𝕜) * τ) • K) (v 0))‖ ≤ (‖τ‖ * ‖H‖) ^ m / (m ! : ℝ) * Real.exp (s * (‖τ‖ * ‖H‖)) := by
      refine (exp_component K _ (v m) (v 0) hvm hv0 m hcomp0).trans ?_
      have hle : ‖(s : 𝕜) * τ‖ * ‖K‖ ≤ s * (‖τ‖ * ‖H‖) := by
        rw [norm_mul, RCLike.norm_ofReal, abs_of_nonneg h0, mul_assoc]
        gcongr
      have hle2 : s * (‖τ‖ * ‖H‖) ≤ ‖τ‖ * ‖H‖ := mul_le_of_le_one_left hx h1
      have hp : (‖(s : 𝕜) * τ‖ * ‖K‖) ^ m ≤ (‖τ‖ * ‖H‖) ^ m := pow_le_pow_left₀ (by positivity) (hle.trans hle2) m
      have he := Real.exp_le_exp.2 hle
      gcongr
    have n3 : ‖H (v m)‖ ≤ ‖H‖ := (H.le_opNorm _).trans (by rw [hvm, mul_one])
    refine (ContinuousLinearMap.le_opNorm _ _).trans ?_
    rw [norm_smul, norm_smul]
    calc _ ≤ Real.exp ((1 - s) * (‖τ‖ * ‖H‖)) * (‖τ‖ * (((‖τ‖ * ‖H‖) ^ m / (m ! : ℝ) * Real.exp (s * (‖τ‖ * ‖H‖))) * ‖H‖)) := by
          gcongr
      _ = (Real.exp ((1 - s) * (‖τ‖ * ‖H‖)) * Real.exp (s * (‖τ‖ * ‖H‖))) * ((‖τ‖ * ‖H‖) ^ (m + 1) / (m ! : ℝ)) := by rw [pow_succ]; ring
      _ = _ := by rw [← Real.exp_add]; congr 2; ring
  · intro hτ
    have hsc : SemiconjBy P (τ • K) (τ • (P * H * P)) := by
      show P * (τ • K) = (τ • (P * H * P)) * P
      rw [hK, mul_smul_comm, smul_mul_assoc, mul_assoc (P * H) P P, hPP, mul_assoc]
    let _ : NormedAlgebra ℚ (E →L[𝕜] E) := NormedAlgebra.restrictScalars ℚ 𝕜 _
    have h1 := hsc.exp_right
    have h2 : P (exp (τ • K) (v 0)) = exp (τ • (P * H * P)) (v 0) := by
      have := congrArg (fun X : E →L[𝕜] E => X (v 0)) h1.eq
      simp only [mul_apply_eq_comp] at this
      rw [this, hPin 0 (by omega)]
    have hKs : IsSelfAdjoint (P * H * P) := hH.conjugate_self hPs
    have h3 : ‖P out‖ = 1 := by rw [hout, h2, exp_skew_norm _ hKs τ hτ, hv0]
    calc (1 : ℝ) = ‖P out‖ := h3.symm
      _ ≤ ‖P‖ * ‖out‖ := P.le_opNorm _
      _ ≤ 1 * ‖out‖ := by gcongr
      _ = _ := one_mul _

end Verif.Expo
