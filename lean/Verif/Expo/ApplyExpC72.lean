import Verif.Expo.ApplyExpProps
import Verif.Expo.PadeC71

/-!
# applyExp computes the exponential
-/

noncomputable section

namespace Verif.Expo

open scoped Nat
open NormedSpace

variable {𝕜 E : Type*} [RCLike 𝕜] [NormedAddCommGroup E] [InnerProductSpace 𝕜 E] [CompleteSpace E]

theorem list_sum {E : Type*} [AddCommMonoid E] (f : Nat → E) (k : Nat) : ((List.range k).map f).sum = ∑ i ∈ Finset.range k, f i := by
  induction k with
  | zero => simp
  | succ k ih => rw [List.range_succ, List.map_append, List.sum_append, ih, Finset.sum_range_succ]; simp

omit [CompleteSpace E] in
theorem assemble_Vl (nrm : ℝ) (v u : Nat → E) (k n : Nat) (hkn : k ≤ n) (hu : ∀ i < k, u i = v i) (hu0 : ∀ i, k ≤ i → u i = 0) (X : Matrix (Fin n) (Fin n) 𝕜) :
    assemble nrm ((List.range k).map v) (col0 X) = (nrm : 𝕜) • Vl 𝕜 u n (X.mulVec (e0 𝕜 n)) := by
  have e1 : ∀ k, ((List.range k).map v).mapIdx (fun i x => ((nrm : 𝕜) * col0 X i) • x) = (List.range k).map fun i => ((nrm : 𝕜) * col0 X i) • v i := by
    intro k
    apply List.ext_getElem
    · simp
    · intro i h1 h2
      simp
  have e2 : ∀ i : Fin n, (nrm : 𝕜) • ((X.mulVec (e0 𝕜 n)) i • u i) = ((nrm : 𝕜) * col0 X i) • u i := fun i => by rw [mulVec_e0, smul_smul]
  rw [assemble, e1, Vl_apply, Finset.smul_sum, Finset.sum_congr rfl fun i _ => e2 i, ← Finset.sum_range fun i => ((nrm : 𝕜) * col0 X i) • u i, list_sum]
  obtain ⟨d, rfl⟩ := Nat.exists_eq_add_of_le hkn
  rw [Finset.sum_range_add]
  have e3 : ∑ x ∈ Finset.range d, ((nrm : 𝕜) * col0 X (k + x)) • u (k + x) = 0 := Finset.sum_eq_zero fun x _ => by rw [hu0 (k + x) (by omega), smul_zero]
  rw [e3, add_zero]
  exact Finset.sum_congr rfl fun i hi => by rw [hu i (Finset.mem_range.1 hi)]

/-- The invariant of the loop before iteration `j`. -/
structure Inv (H : E →L[𝕜] E) (x0 : E) (j : Nat) (s : ASt E) (v : Nat → E) : Prop where
  lv : s.lv = (List.range (j + 1)).map v
  v0 : v 0 = x0
  v1 : s.v1 = v j
  vp : 0 < j → s.v0 = v (j - 1) ∧ s.beta = s.T j (j - 1)
  on : ONup 𝕜 v (j + 1)
  hv : ∀ i < j, H (v i) = ∑ r ∈ Finset.range (j + 1), (s.T r i : 𝕜) • v r
  sym : ∀ a b, s.T a b = s.T b a
  low : ∀ r i, i + 1 < r → s.T r i = 0
  big : s.T j j = 0
  bigr : ∀ r i, j < r → s.T r i = 0
  nz : 0 < j → s.T 1 0 ≠ 0

/-- The vector `w` after the subtractions. -/
def lanW (H : E → E) (j : Nat) (s : ASt E) : E :=
  if j > 0 then H s.v1 - ((RCLike.re (inner 𝕜 (H s.v1) s.v1) : ℝ) : 𝕜) • s.v1 - (s.beta : 𝕜) • s.v0 else H s.v1 - ((RCLike.re (inner 𝕜 (H s.v1) s.v1) : ℝ) : 𝕜) • s.v1

theorem symm_re (H : E →L[𝕜] E) (hH : IsSelfAdjoint H) (x : E) : inner 𝕜 x (H x) = ((RCLike.re (inner 𝕜 (H x) x) : ℝ) : 𝕜) := by
  have h1 : inner 𝕜 (H x) x = inner 𝕜 x (H x) := hH.isSymmetric x x
  have h2 := inner_conj_symm (𝕜 := 𝕜) x (H x)
  rw [h1] at h2 ⊢
  exact (RCLike.conj_eq_iff_re.1 h2).symm

variable {H : E →L[𝕜] E} {x0 : E} {j : Nat} {s : ASt E} {v : Nat → E}

omit [CompleteSpace E] in
theorem lanW_sum (hi : Inv H x0 j s v) :
    H (v j) = (∑ r ∈ Finset.range (j + 1), ((setM s.T j j (RCLike.re (inner 𝕜 (H s.v1) s.v1)) r j : ℝ) : 𝕜) • v r) + lanW (𝕜 := 𝕜) H j s := by
  have hd : setM s.T j j (RCLike.re (inner 𝕜 (H s.v1) s.v1)) j j = RCLike.re (inner 𝕜 (H s.v1) s.v1) := by simp [setM]
  have ho : ∀ r, r ≠ j → setM s.T j j (RCLike.re (inner 𝕜 (H s.v1) s.v1)) r j = s.T r j := fun r hr => by simp [setM, hr]
  rw [Finset.sum_range_succ, hd]
  unfold lanW
  rw [hi.v1] at ho ⊢
  cases j with
  | zero => simp
  | succ k =>
    obtain ⟨h0, hb⟩ := hi.vp (by omega)
    rw [Finset.sum_range_succ, ho k (by omega), if_pos (by omega), h0, hb, hi.sym k, Nat.add_sub_cancel]
    have : ∑ r ∈ Finset.range k, ((setM s.T (k + 1) (k + 1) (RCLike.re (inner 𝕜 (H (v (k + 1))) (v (k + 1)))) r (k + 1) : ℝ) : 𝕜) • v r = 0 := by
      refine Finset.sum_eq_zero fun r hr => ?_
      have hr := Finset.mem_range.1 hr
      rw [ho r (by omega), hi.sym, hi.low _ _ (by omega), RCLike.ofReal_zero, zero_smul]
    rw [this]
    abel

omit [CompleteSpace E] in
theorem sum_coef (ho : ONup 𝕜 v (j + 1)) (c : Nat → ℝ) {a : Nat} (ha : a < j + 1) : inner 𝕜 (v a) (∑ r ∈ Finset.range (j + 1), (c r : 𝕜) • v r) = (c a : 𝕜) := by
  rw [inner_sum, Finset.sum_eq_single a]
  · rw [inner_smul_right, ho a a ha ha, if_pos rfl, mul_one]
  · intro b hb hne
    rw [inner_smul_right, ho a b ha (Finset.mem_range.1 hb), if_neg (Ne.symm hne), mul_zero]
  · intro h; exact absurd (Finset.mem_range.2 ha) h

theorem lanW_ortho (hH : IsSelfAdjoint H) (hi : Inv H x0 j s v) : ∀ r < j + 1, inner 𝕜 (v r) (lanW (𝕜 := 𝕜) H j s) = 0 := by
  intro r hr
  have h := lanW_sum hi
  have h1 : inner 𝕜 (v r) (H (v j)) = ((setM s.T j j (RCLike.re (inner 𝕜 (H s.v1) s.v1)) r j : ℝ) : 𝕜) := by
    by_cases hrj : r = j
    · subst hrj
      rw [symm_re H hH, hi.v1]; simp [setM]
    · have e1 : inner 𝕜 (v r) (H (v j)) = inner 𝕜 (H (v r)) (v j) := (hH.isSymmetric (v r) (v j)).symm
      rw [e1, hi.hv r (by omega), ← inner_conj_symm, sum_coef hi.on (fun r' => s.T r' r) (by omega : j < j + 1), RCLike.conj_ofReal, hi.sym]
      simp [setM, hrj]
  rw [h, inner_add_right, sum_coef hi.on (fun r => setM s.T j j (RCLike.re (inner 𝕜 (H s.v1) s.v1)) r j) hr] at h1
  exact add_eq_left.1 h1

/-- The next state. -/
def nextSt (𝕜 : Type*) [RCLike 𝕜] {E : Type*} [NormedAddCommGroup E] [InnerProductSpace 𝕜 E] (H : E → E) (j : Nat) (s : ASt E) : ASt E :=
  let w := lanW (𝕜 := 𝕜) H j s
  ⟨((1 / ‖w‖ : ℝ) : 𝕜) • w, s.v1, s.lv ++ [((1 / ‖w‖ : ℝ) : 𝕜) • w],
    setM (setM (setM s.T j j (RCLike.re (inner 𝕜 (H s.v1) s.v1))) (j + 1) j ‖w‖) j (j + 1) ‖w‖, ‖w‖⟩

theorem next_inv (hH : IsSelfAdjoint H) (hi : Inv H x0 j s v) (hw : ‖lanW (𝕜 := 𝕜) H j s‖ ≠ 0) :
    ∃ v', Inv H x0 (j + 1) (nextSt 𝕜 H j s) v' ∧ (∀ i ≤ j, v' i = v i) := by
  obtain ⟨w, hwd⟩ : ∃ w, w = lanW (𝕜 := 𝕜) H j s := ⟨_, rfl⟩
  have hsum := lanW_sum hi
  have hort := lanW_ortho hH hi
  rw [← hwd] at hsum hort hw
  obtain ⟨x, hx⟩ : ∃ x, x = ((1 / ‖w‖ : ℝ) : 𝕜) • w := ⟨_, rfl⟩
  have hxw : w = (‖w‖ : 𝕜) • x := by
    rw [hx, smul_smul, ← RCLike.ofReal_mul, mul_one_div_cancel hw, RCLike.ofReal_one, one_smul]
  have hxn : inner 𝕜 x x = (1 : 𝕜) := by
    rw [inner_self_eq_norm_sq_to_K]
    have : ‖x‖ = 1 := by
      rw [hx, norm_smul, RCLike.norm_ofReal, abs_of_nonneg (by positivity), one_div_mul_cancel hw]
    rw [this]; simp
  have hxo : ∀ r < j + 1, inner 𝕜 (v r) x = 0 := fun r hr => by rw [hx, inner_smul_right, hort r hr, mul_zero]
  have hs : nextSt 𝕜 H j s = ⟨x, s.v1, s.lv ++ [x], setM (setM (setM s.T j j (RCLike.re (inner 𝕜 (H s.v1) s.v1))) (j + 1) j ‖w‖) j (j + 1) ‖w‖, ‖w‖⟩ := by
    rw [nextSt, ← hwd, hx]
  rw [hs]
  obtain ⟨v', hv'⟩ : ∃ v' : Nat → E, v' = fun i => if i ≤ j then v i else x := ⟨_, rfl⟩
  have h1 : ∀ i ≤ j, v' i = v i := fun i hi => by rw [hv']; simp [hi]
  have h2 : v' (j + 1) = x := by rw [hv']; simp
  refine ⟨v', ?_, h1⟩
  obtain ⟨T', hT'⟩ : ∃ T', T' = setM (setM (setM s.T j j (RCLike.re (inner 𝕜 (H s.v1) s.v1))) (j + 1) j ‖w‖) j (j + 1) ‖w‖ := ⟨_, rfl⟩
  have t1 : ∀ a b, a ≤ j → b ≤ j → T' a b = setM s.T j j (RCLike.re (inner 𝕜 (H s.v1) s.v1)) a b := by
    intro a b ha hb
    rw [hT']; unfold setM
    rw [if_neg (by omega), if_neg (by omega)]
  have t2 : T' (j + 1) j = ‖w‖ := by rw [hT']; simp [setM]
  have t3 : T' j (j + 1) = ‖w‖ := by rw [hT']; simp [setM]
  have t4 : ∀ a b, (j + 1 < a ∨ j + 1 < b ∨ (a = j + 1 ∧ b ≠ j) ∨ (b = j + 1 ∧ a ≠ j)) → T' a b = 0 := by
    intro a b h
    rw [hT']; unfold setM
    rw [if_neg (by omega), if_neg (by omega), if_neg (by omega)]
    by_cases hja : j < a
    · exact hi.bigr a b hja
    · rw [hi.sym]; exact hi.bigr b a (by omega)
  rw [← hT']
  refine ⟨?_, ?_, ?_, ?_, ?_, ?_, ?_, ?_, ?_, ?_, ?_⟩
  · show s.lv ++ [x] = _
    rw [hi.lv, List.range_succ (n := j + 1), List.map_append]
    congr 1
    · exact List.map_congr_left fun i hi => (h1 i (by have := List.mem_range.1 hi; omega)).symm
    · simp [h2]
  · rw [h1 0 (by omega), hi.v0]
  · exact h2.symm
  · intro _
    refine ⟨?_, ?_⟩
    · show s.v1 = _
      rw [Nat.add_sub_cancel, h1 j le_rfl, hi.v1]
    · show ‖w‖ = T' (j + 1) (j + 1 - 1)
      rw [Nat.add_sub_cancel, t2]
  · intro a b ha hb
    by_cases ha' : a ≤ j
    · by_cases hb' : b ≤ j
      · rw [h1 a ha', h1 b hb']; exact hi.on a b (by omega) (by omega)
      · obtain rfl : b = j + 1 := by omega
        rw [h1 a ha', h2, hxo a (by omega), if_neg (by omega)]
    · obtain rfl : a = j + 1 := by omega
      by_cases hb' : b ≤ j
      · rw [h1 b hb', h2, ← inner_conj_symm, hxo b (by omega), if_neg (by omega), map_zero]
      · obtain rfl : b = j + 1 := by omega
        rw [h2, hxn, if_pos rfl]
  · intro i hij
    show H (v' i) = ∑ r ∈ Finset.range (j + 1 + 1), ((T' r i : ℝ) : 𝕜) • v' r
    rw [Finset.sum_range_succ, h2, h1 i (by omega)]
    have e1 : ∑ r ∈ Finset.range (j + 1), ((T' r i : ℝ) : 𝕜) • v' r
        = ∑ r ∈ Finset.range (j + 1), ((setM s.T j j (RCLike.re (inner 𝕜 (H s.v1) s.v1)) r i : ℝ) : 𝕜) • v r := by
      refine Finset.sum_congr rfl fun r hr => ?_
      have := Finset.mem_range.1 hr
      rw [t1 r i (by omega) (by omega), h1 r (by omega)]
    rw [e1]
    by_cases hi' : i = j
    · subst hi'
      rw [t2, ← hxw]; exact hsum
    · rw [t4 (j + 1) i (by omega), RCLike.ofReal_zero, zero_smul, add_zero, hi.hv i (by omega)]
      refine Finset.sum_congr rfl fun r hr => ?_
      have : setM s.T j j (RCLike.re (inner 𝕜 (H s.v1) s.v1)) r i = s.T r i := by unfold setM; rw [if_neg (by omega)]
      rw [this]
  · intro a b
    show T' a b = T' b a
    by_cases ha : a ≤ j
    · by_cases hb : b ≤ j
      · rw [t1 a b ha hb, t1 b a hb ha]; unfold setM
        by_cases h : a = j ∧ b = j
        · rw [if_pos h, if_pos ⟨h.2, h.1⟩]
        · rw [if_neg h, if_neg (fun h' => h ⟨h'.2, h'.1⟩), hi.sym]
      · by_cases hb1 : b = j + 1 ∧ a = j
        · obtain ⟨rfl, rfl⟩ := hb1; rw [t2, t3]
        · rw [t4 a b (by omega), t4 b a (by omega)]
    · by_cases hb1 : a = j + 1 ∧ b = j
      · obtain ⟨rfl, rfl⟩ := hb1; rw [t2, t3]
      · rw [t4 a b (by omega), t4 b a (by omega)]
  · intro r i hri
    show T' r i = 0
    by_cases h : r ≤ j
    · rw [t1 r i h (by omega)]; unfold setM; rw [if_neg (by omega), hi.low r i hri]
    · exact t4 r i (by omega)
  · exact t4 _ _ (by omega)
  · intro r i h; exact t4 r i (by omega)
  · intro _
    show T' 1 0 ≠ 0
    cases j with
    | zero => rw [t2]; exact hw
    | succ k =>
      rw [t1 1 0 (by omega) (by omega)]; unfold setM
      rw [if_neg (by omega)]
      exact hi.nz (by omega)

/-- What is claimed of the outcome; `δ` is the error of the exponentials of the small matrices. -/
def Good (H : E →L[𝕜] E) (τ : 𝕜) (o : AOpts) (δ : ℝ) (phi out : E) : Prop :=
  (‖out - exp (τ • H) phi‖ ≤ ‖phi‖ * (‖τ‖ * o.betaTol * Real.exp (‖τ‖ * ‖H‖) + δ) ∧ (RCLike.re τ = 0 → |‖out‖ - ‖phi‖| ≤ ‖phi‖ * δ ∧ ‖out - exp (τ • H) phi‖ ≤ ‖phi‖ * (‖τ‖ * o.betaTol + δ)))
  ∨ ∃ m, 2 ≤ m ∧ m ≤ o.maxIter ∧ (o.tol ≤ 0 → m = o.maxIter) ∧ (∃ e : Fin (m + 1) → E, Orthonormal 𝕜 e) ∧
    ‖out - exp (τ • H) phi‖ ≤ ‖phi‖ * (Real.exp (‖τ‖ * ‖H‖) * ((‖τ‖ * ‖H‖) ^ (m + 1) / (m ! : ℝ)) + δ) ∧ (RCLike.re τ = 0 → ‖phi‖ ≤ ‖out‖ + ‖phi‖ * δ)

/-- `exm` exponentiates, up to `δ`, the matrices `τ M` with not more than `n0` rows and rows of a bounded size. -/
def ExpTo (τ : 𝕜) (exm : (n : Nat) → Matrix (Fin n) (Fin n) 𝕜 → Res (Matrix (Fin n) (Fin n) 𝕜)) (n0 : Nat) (b δ : ℝ) : Prop :=
  ∀ n M, n ≤ n0 → M ≠ 0 → (∀ a, ∑ c, ‖M a c‖ ≤ b) → ∃ X, exm n M = .ok X ∧ ∑ a : Fin n, ‖col0 X a - col0 (exp (τ • M)) a‖ ≤ δ

omit [CompleteSpace E] in
theorem Vl_diff (u : Nat → E) (n : Nat) (hu : ∀ i < n, ‖u i‖ ≤ 1) (X Y : Matrix (Fin n) (Fin n) 𝕜) :
    ‖Vl 𝕜 u n (X.mulVec (e0 𝕜 n)) - Vl 𝕜 u n (Y.mulVec (e0 𝕜 n))‖ ≤ ∑ a : Fin n, ‖col0 X a - col0 Y a‖ := by
  rw [← map_sub, Vl_apply]
  refine (norm_sum_le _ _).trans (Finset.sum_le_sum fun i _ => ?_)
  rw [norm_smul, Pi.sub_apply, mulVec_e0, mulVec_e0]
  exact mul_le_of_le_one_right (norm_nonneg _) (hu i i.2)

omit [CompleteSpace E] in
theorem ONup.le_one {v : Nat → E} {n : Nat} (h : ONup 𝕜 v n) : ∀ i < n, ‖v i‖ ≤ 1 := by
  intro i hi
  have := h i i hi hi
  rw [if_pos rfl, inner_self_eq_norm_sq_to_K, ← RCLike.ofReal_pow, ← RCLike.ofReal_one, RCLike.ofReal_inj] at this
  nlinarith [norm_nonneg (v i)]

omit [CompleteSpace E] in
theorem Inv.bound (hi : Inv H x0 j s v) (r i : Nat) : |s.T r i| ≤ ‖H‖ := by
  have h0 : ∀ r i, i < j → |s.T r i| ≤ ‖H‖ := by
    intro r i h
    by_cases hr : r < j + 1
    · have e : inner 𝕜 (v r) (H (v i)) = (s.T r i : 𝕜) := by
        rw [hi.hv i h, inner_sum, Finset.sum_eq_single r]
        · rw [inner_smul_right, hi.on r r hr hr, if_pos rfl, mul_one]
        · intro b hb hbr
          rw [inner_smul_right, hi.on r b hr (Finset.mem_range.1 hb), if_neg (Ne.symm hbr), mul_zero]
        · intro hb; exact absurd (Finset.mem_range.2 hr) hb
      have h1 := norm_inner_le_norm (𝕜 := 𝕜) (v r) (H (v i))
      rw [e, RCLike.norm_ofReal] at h1
      refine h1.trans ?_
      have h2 := H.le_opNorm (v i)
      have h3 := hi.on.le_one r hr
      have h4 := hi.on.le_one i (by omega)
      calc ‖v r‖ * ‖H (v i)‖ ≤ 1 * (‖H‖ * 1) := by gcongr; exact h2.trans (by gcongr)
        _ = ‖H‖ := by ring
    · rw [hi.bigr r i (by omega), abs_zero]; exact norm_nonneg _
  by_cases h : i < j
  · exact h0 r i h
  · by_cases h' : r < j
    · rw [hi.sym]; exact h0 i r h'
    · by_cases h2 : j < r
      · rw [hi.bigr r i h2, abs_zero]; exact norm_nonneg _
      · by_cases h3 : j < i
        · rw [hi.sym, hi.bigr i r h3, abs_zero]; exact norm_nonneg _
        · have e1 : r = j := by omega
          have e2 : i = j := by omega
          rw [e1, e2, hi.big, abs_zero]; exact norm_nonneg _

/-- The rows of a tridiagonal matrix. -/
theorem tri_rows {T : Nat → Nat → ℝ} {h : ℝ} (hT : ∀ a b, |T a b| ≤ h) (h1 : ∀ a b, b + 1 < a → T a b = 0) (h2 : ∀ a b, a + 1 < b → T a b = 0) (n a : Nat) :
    ∑ b ∈ Finset.range n, |T a b| ≤ 3 * h := by
  have h0 : 0 ≤ h := (abs_nonneg _).trans (hT 0 0)
  have one : ∀ c, ∑ b ∈ Finset.range n, (if b = c then h else 0) ≤ h := by
    intro c
    rw [Finset.sum_ite_eq' (Finset.range n) c (fun _ => h)]
    split
    · exact le_rfl
    · exact h0
  have one' : ∑ b ∈ Finset.range n, (if b + 1 = a then h else 0) ≤ h := by
    cases a with
    | zero => simpa using h0
    | succ c => simpa using one c
  calc ∑ b ∈ Finset.range n, |T a b| ≤ ∑ b ∈ Finset.range n, ((if b = a then h else 0) + (if b = a + 1 then h else 0) + (if b + 1 = a then h else 0)) := by
        refine Finset.sum_le_sum fun b _ => ?_
        rcases Nat.lt_trichotomy a b with hab | hab | hab
        · by_cases e : b = a + 1
          · rw [if_neg (by omega), if_pos e, if_neg (by omega)]; linarith [hT a b]
          · rw [h2 a b (by omega), abs_zero, if_neg (by omega), if_neg (by omega), if_neg (by omega)]; linarith
        · rw [if_pos hab.symm, if_neg (by omega), if_neg (by omega)]; linarith [hT a b]
        · by_cases e : b + 1 = a
          · rw [if_neg (by omega), if_neg (by omega), if_pos e]; linarith [hT a b]
          · rw [h1 a b (by omega), abs_zero, if_neg (by omega), if_neg (by omega), if_neg (by omega)]; linarith
    _ ≤ 3 * h := by
        rw [Finset.sum_add_distrib, Finset.sum_add_distrib]
        linarith [one a, one (a + 1)]

theorem subMat_rows (T : Nat → Nat → ℝ) (n : Nat) (a : Fin n) : ∑ c, ‖subMat 𝕜 T n a c‖ = ∑ b ∈ Finset.range n, |T a b| := by
  rw [Finset.sum_range]
  exact Finset.sum_congr rfl fun c _ => by rw [subMat, RCLike.norm_ofReal]

theorem ext_rows {T : Nat → Nat → ℝ} {h : ℝ} (hT : ∀ a b, |T a b| ≤ h) (h1 : ∀ a b, b + 1 < a → T a b = 0) (h2 : ∀ a b, a + 1 < b → T a b = 0) (m n a : Nat) :
    ∑ b ∈ Finset.range n, |extMat T m a b| ≤ 3 * h + 1 := by
  have h0 : 0 ≤ h := (abs_nonneg _).trans (hT 0 0)
  calc ∑ b ∈ Finset.range n, |extMat T m a b| ≤ ∑ b ∈ Finset.range n, (|T a b| + if b = m then 1 else 0) := by
        refine Finset.sum_le_sum fun b _ => ?_
        unfold extMat setM
        by_cases e : a = m + 1 ∧ b = m
        · rw [if_pos e, if_pos e.2, abs_one]; linarith [abs_nonneg (T a b)]
        · rw [if_neg e]
          have : (0 : ℝ) ≤ if b = m then 1 else 0 := by split <;> norm_num
          by_cases e2 : a = m - 1 ∧ b = m
          · rw [if_pos e2, abs_zero]; linarith [abs_nonneg (T a b)]
          · rw [if_neg e2]; linarith
    _ ≤ 3 * h + 1 := by
        rw [Finset.sum_add_distrib, Finset.sum_ite_eq' (Finset.range n) m (fun _ => (1 : ℝ))]
        have := tri_rows hT h1 h2 n a
        split <;> linarith

theorem errEst_nonneg {a b : ℝ} (ha : 0 ≤ a) (hb : 0 ≤ b) : 0 ≤ errEst a b := by
  unfold errEst
  split
  · exact hb
  · split
    · rename_i h; exact div_nonneg (mul_nonneg ha hb) (by linarith)
    · exact ha

/-- From unit vectors to the vector given. -/
theorem scale_err (H : E →L[𝕜] E) (τ : 𝕜) (phi x0 y : E) (hx : phi = (‖phi‖ : 𝕜) • x0) : ‖(‖phi‖ : 𝕜) • y - exp (τ • H) phi‖ = ‖phi‖ * ‖y - exp (τ • H) x0‖ := by
  have : exp (τ • H) phi = (‖phi‖ : 𝕜) • exp (τ • H) x0 := by
    rw [← map_smul, ← hx]
  rw [this, ← smul_sub, norm_smul, RCLike.norm_ofReal, abs_norm]

theorem subMat_ne {T : Nat → Nat → ℝ} {n a b : Nat} (ha : a < n) (hb : b < n) (h : T a b ≠ 0) : subMat 𝕜 T n ≠ 0 := by
  intro h0
  have := congrFun (congrFun h0 ⟨a, ha⟩) ⟨b, hb⟩
  simp only [subMat, Matrix.zero_apply] at this
  exact h (RCLike.ofReal_eq_zero.1 this)

theorem lanLoop_step (hH : IsSelfAdjoint H) (τ : 𝕜) (exm : (n : Nat) → Matrix (Fin n) (Fin n) 𝕜 → Res (Matrix (Fin n) (Fin n) 𝕜))
    (o : AOpts) (δ : ℝ) (hex : ExpTo τ exm (o.maxIter + 2) (3 * ‖H‖ + 1) δ) (hb : 0 < o.betaTol) (hm : 2 ≤ o.maxIter) (phi : E) (hx : phi = (‖phi‖ : 𝕜) • x0)
    (hz : inner 𝕜 (H x0) x0 ≠ 0 ∨ o.betaTol ≤ ‖H x0‖) (rem : Nat) (hr : rem + 1 + j = o.maxIter) (hi : Inv H x0 j s v) :
    (∃ out, lanLoop H exm o phi ‖phi‖ (rem + 1) j s = .ok out ∧ Good H τ o δ phi out) ∨
    (‖lanW (𝕜 := 𝕜) H j s‖ ≠ 0 ∧ j + 1 ≠ o.maxIter ∧ lanLoop H exm o phi ‖phi‖ (rem + 1) j s = lanLoop H exm o phi ‖phi‖ rem (j + 1) (nextSt 𝕜 H j s)) := by
  have hW : (if j > 0 then H s.v1 - ((RCLike.re (inner 𝕜 (H s.v1) s.v1) : ℝ) : 𝕜) • s.v1 - (s.beta : 𝕜) • s.v0 else H s.v1 - ((RCLike.re (inner 𝕜 (H s.v1) s.v1) : ℝ) : 𝕜) • s.v1)
      = lanW (𝕜 := 𝕜) H j s := rfl
  obtain ⟨T1, hT1⟩ : ∃ T1, T1 = setM s.T j j (RCLike.re (inner 𝕜 (H s.v1) s.v1)) := ⟨_, rfl⟩
  have hsum := lanW_sum hi
  have hort := lanW_ortho hH hi
  generalize hK : lanLoop H exm o phi ‖phi‖ rem (j + 1) (nextSt 𝕜 H j s) = K
  unfold lanLoop
  simp only [hW, abs_norm, ← hT1]
  rw [← hT1] at hsum
  by_cases h1 : ‖lanW (𝕜 := 𝕜) H j s‖ < o.betaTol
  · -- the sequence is exhausted
    left
    rw [if_pos h1]
    have hne : subMat 𝕜 T1 (j + 1) ≠ 0 := by
      cases hj : j with
      | zero =>
        subst hj
        refine subMat_ne (a := 0) (b := 0) (by omega) (by omega) ?_
        rw [hT1]
        simp only [setM, and_self, if_true]
        intro h0
        have e : lanW (𝕜 := 𝕜) H 0 s = H x0 := by
          simp only [lanW, gt_iff_lt, lt_irrefl, if_false]
          rw [h0, hi.v1, hi.v0]; simp
        rw [hi.v1, hi.v0] at h0
        rcases hz with h | h
        · apply h
          have := symm_re H hH x0
          rw [h0, RCLike.ofReal_zero] at this
          rw [← inner_conj_symm, this, map_zero]
        · rw [e] at h1; linarith
      | succ k =>
        subst hj
        refine subMat_ne (a := 1) (b := 0) (by omega) (by omega) ?_
        rw [hT1]
        unfold setM
        rw [if_neg (by omega)]
        exact hi.nz (by omega)
    have ha : |RCLike.re (inner 𝕜 (H s.v1) s.v1)| ≤ ‖H‖ := by
      have h3 := hi.on.le_one j (by omega)
      rw [hi.v1]
      calc |RCLike.re (inner 𝕜 (H (v j)) (v j))| ≤ ‖inner 𝕜 (H (v j)) (v j)‖ := RCLike.abs_re_le_norm _
        _ ≤ ‖H (v j)‖ * ‖v j‖ := norm_inner_le_norm _ _
        _ ≤ (‖H‖ * 1) * 1 := by gcongr; exact (H.le_opNorm _).trans (by gcongr)
        _ = ‖H‖ := by ring
    obtain ⟨X, hX, hXd⟩ := hex _ (subMat 𝕜 T1 (j + 1)) (by omega) hne (by
      intro a
      rw [subMat_rows]
      have := tri_rows (T := T1) (h := ‖H‖) (by
        intro a b
        rw [hT1]; unfold setM
        split
        · exact ha
        · exact hi.bound a b) (by
        intro a b hab
        rw [hT1]; unfold setM
        rw [if_neg (by omega)]
        exact hi.low _ _ hab) (by
        intro a b hab
        rw [hT1]; unfold setM
        rw [if_neg (by omega), hi.sym]
        exact hi.low _ _ hab) (j + 1) a
      linarith)
    rw [hX]
    refine ⟨_, rfl, Or.inl ?_⟩
    rw [hi.lv, assemble_Vl ‖phi‖ v (fun i => if i < j + 1 then v i else 0) (j + 1) (j + 1) le_rfl (fun i h => by simp [h]) (fun i h => by simp; omega)]
    have hVl : ∀ x : Fin (j + 1) → 𝕜, Vl 𝕜 (fun i => if i < j + 1 then v i else 0) (j + 1) x = Vl 𝕜 v (j + 1) x := by
      intro x
      rw [Vl_apply, Vl_apply]
      exact Finset.sum_congr rfl fun i _ => by simp [i.2]
    rw [hVl]
    have hv : ∀ i < j + 1, H (v i) = (∑ r ∈ Finset.range (j + 1), (T1 r i : 𝕜) • v r) + if i = j then lanW (𝕜 := 𝕜) H j s else 0 := by
      intro i hij
      by_cases h : i = j
      · subst h; rw [if_pos rfl]; exact hsum
      · rw [if_neg h, add_zero, hi.hv i (by omega)]
        refine Finset.sum_congr rfl fun r _ => ?_
        have : T1 r i = s.T r i := by rw [hT1]; unfold setM; rw [if_neg (by omega)]
        rw [this]
    obtain ⟨g1, g2⟩ := exhausted H hH v j T1 _ τ hi.on hv hort
    rw [hi.v0] at g1 g2
    have hd := (Vl_diff v (j + 1) hi.on.le_one X (exp (τ • subMat 𝕜 T1 (j + 1)))).trans hXd
    generalize Vl 𝕜 v (j + 1) (X.mulVec (e0 𝕜 (j + 1))) = y at hd ⊢
    generalize Vl 𝕜 v (j + 1) ((exp (τ • subMat 𝕜 T1 (j + 1))).mulVec (e0 𝕜 (j + 1))) = z at hd g1 g2
    have htri : ‖y - exp (τ • H) x0‖ ≤ ‖y - z‖ + ‖z - exp (τ • H) x0‖ := norm_sub_le_norm_sub_add_norm_sub _ _ _
    have hnn := norm_nonneg τ
    refine ⟨?_, fun hτ => ⟨?_, ?_⟩⟩
    · rw [scale_err H τ phi x0 _ hx]
      refine mul_le_mul_of_nonneg_left ?_ (norm_nonneg _)
      have : ‖z - exp (τ • H) x0‖ ≤ ‖τ‖ * o.betaTol * Real.exp (‖τ‖ * ‖H‖) := g1.trans (by gcongr)
      linarith
    · rw [norm_smul, RCLike.norm_ofReal, abs_norm]
      have e : ‖phi‖ * ‖y‖ - ‖phi‖ = ‖phi‖ * (‖y‖ - ‖z‖) := by rw [(g2 hτ).1]; ring
      rw [e, abs_mul, abs_norm]
      exact mul_le_mul_of_nonneg_left ((abs_norm_sub_norm_le y z).trans hd) (norm_nonneg _)
    · rw [scale_err H τ phi x0 _ hx]
      refine mul_le_mul_of_nonneg_left ?_ (norm_nonneg _)
      have : ‖z - exp (τ • H) x0‖ ≤ ‖τ‖ * o.betaTol := (g2 hτ).2.trans (by gcongr)
      linarith
  · rw [if_neg h1]
    have hw0 : ‖lanW (𝕜 := 𝕜) H j s‖ ≠ 0 := by intro h; rw [h] at h1; exact h1 hb
    rw [if_neg hw0]
    have hnext : nextSt 𝕜 H j s = ⟨((1 / ‖lanW (𝕜 := 𝕜) H j s‖ : ℝ) : 𝕜) • lanW (𝕜 := 𝕜) H j s, s.v1, s.lv ++ [((1 / ‖lanW (𝕜 := 𝕜) H j s‖ : ℝ) : 𝕜) • lanW (𝕜 := 𝕜) H j s],
      setM (setM T1 (j + 1) j ‖lanW (𝕜 := 𝕜) H j s‖) j (j + 1) ‖lanW (𝕜 := 𝕜) H j s‖, ‖lanW (𝕜 := 𝕜) H j s‖⟩ := by rw [nextSt, ← hT1]
    rw [← hnext]
    have hTn : setM (setM T1 (j + 1) j ‖lanW (𝕜 := 𝕜) H j s‖) j (j + 1) ‖lanW (𝕜 := 𝕜) H j s‖ = (nextSt 𝕜 H j s).T := by rw [hnext]
    have hln : s.lv ++ [((1 / ‖lanW (𝕜 := 𝕜) H j s‖ : ℝ) : 𝕜) • lanW (𝕜 := 𝕜) H j s] = (nextSt 𝕜 H j s).lv := by rw [hnext]
    rw [hTn, hln]
    by_cases hj : j > 0
    · rw [if_pos hj]
      have hne : subMat 𝕜 (extMat (nextSt 𝕜 H j s).T (j + 1)) (j + 3) ≠ 0 := by
        refine subMat_ne (a := j + 2) (b := j + 1) (by omega) (by omega) ?_
        simp [extMat, setM]
      obtain ⟨v', hi', _⟩ := next_inv hH hi hw0
      obtain ⟨X, hX, hXd⟩ := hex _ (subMat 𝕜 (extMat (nextSt 𝕜 H j s).T (j + 1)) (j + 3)) (by omega) hne (by
        intro a
        rw [subMat_rows]
        exact ext_rows hi'.bound hi'.low (fun a b h => by rw [hi'.sym]; exact hi'.low _ _ h) _ _ _)
      rw [hX]
      simp only [Res.bind]
      by_cases hc : errEst ‖(‖phi‖ : 𝕜) * col0 X (j + 1)‖ ‖(‖phi‖ : 𝕜) * col0 X (j + 2) * ((‖H s.v1‖ : ℝ) : 𝕜)‖ < o.tol ∨ j + 1 = o.maxIter
      · left
        rw [if_pos hc]
        refine ⟨_, rfl, Or.inr ⟨j + 1, by omega, by omega, ?_, ?_⟩⟩
        · intro htol
          rcases hc with h | h
          · have := errEst_nonneg (norm_nonneg ((‖phi‖ : 𝕜) * col0 X (j + 1))) (norm_nonneg ((‖phi‖ : 𝕜) * col0 X (j + 2) * ((‖H s.v1‖ : ℝ) : 𝕜)))
            linarith
          · exact h
        · refine ⟨⟨fun i => v' i, ?_⟩, ?_⟩
          · rw [orthonormal_iff_ite]
            intro a b
            rw [hi'.on a b a.2 b.2]
            simp [Fin.ext_iff]
          · obtain ⟨u, hu⟩ : ∃ u : Nat → E, u = fun i => if i < j + 2 then v' i else 0 := ⟨_, rfl⟩
            rw [hi'.lv, assemble_Vl ‖phi‖ v' u (j + 2) (j + 3) (by omega) (fun i h => by rw [hu]; simp [h]) (fun i h => by rw [hu]; simp; omega)]
            obtain ⟨g1, g2⟩ := stopped H hH v' (j + 1) (by omega) (nextSt 𝕜 H j s).T τ hi'.on hi'.hv hi'.low
              (by
                intro r hr
                rcases Nat.lt_trichotomy r (j + 1) with h | h | h
                · rw [hi'.sym]; exact hi'.low _ _ (by omega)
                · rw [h]; exact hi'.big
                · exact hi'.bigr _ _ (by omega))
              (by intro r; rw [hi'.sym]; exact hi'.bigr _ _ (by omega)) u (fun i h => by rw [hu]; simp; omega) (by rw [hu]; simp)
            rw [hi'.v0] at g1
            have hd := (Vl_diff u (j + 3) (by
              intro i h
              rw [hu]; dsimp only
              split
              · exact hi'.on.le_one i (by omega)
              · simp) X (exp (τ • subMat 𝕜 (extMat (nextSt 𝕜 H j s).T (j + 1)) (j + 3)))).trans hXd
            generalize Vl 𝕜 u (j + 3) (X.mulVec (e0 𝕜 (j + 3))) = y at hd ⊢
            have g1' := g1
            generalize Vl 𝕜 u (j + 1 + 2) ((exp (τ • subMat 𝕜 (extMat (nextSt 𝕜 H j s).T (j + 1)) (j + 1 + 2))).mulVec (e0 𝕜 (j + 1 + 2))) = z at hd g1 g2
            have htri : ‖y - exp (τ • H) x0‖ ≤ ‖y - z‖ + ‖z - exp (τ • H) x0‖ := norm_sub_le_norm_sub_add_norm_sub _ _ _
            refine ⟨?_, fun hτ => ?_⟩
            · rw [scale_err H τ phi x0 _ hx]
              refine mul_le_mul_of_nonneg_left ?_ (norm_nonneg _)
              linarith
            · rw [norm_smul, RCLike.norm_ofReal, abs_norm, ← mul_add]
              refine le_mul_of_one_le_right (norm_nonneg _) ?_
              have h1 := g2 hτ
              have h2 := abs_le.1 ((abs_norm_sub_norm_le y z).trans hd)
              linarith
      · right
        rw [if_neg hc]
        exact ⟨hw0, fun h => hc (Or.inr h), hK⟩
    · right
      rw [if_neg hj]
      exact ⟨hw0, by omega, hK⟩

theorem lanLoop_ok (hH : IsSelfAdjoint H) (τ : 𝕜) (exm : (n : Nat) → Matrix (Fin n) (Fin n) 𝕜 → Res (Matrix (Fin n) (Fin n) 𝕜))
    (o : AOpts) (δ : ℝ) (hex : ExpTo τ exm (o.maxIter + 2) (3 * ‖H‖ + 1) δ) (hb : 0 < o.betaTol) (hm : 2 ≤ o.maxIter) (phi : E) (hx : phi = (‖phi‖ : 𝕜) • x0)
    (hz : inner 𝕜 (H x0) x0 ≠ 0 ∨ o.betaTol ≤ ‖H x0‖) (rem : Nat) (hr : rem + 1 + j = o.maxIter) (hi : Inv H x0 j s v) :
    ∃ out, lanLoop H exm o phi ‖phi‖ (rem + 1) j s = .ok out ∧ Good H τ o δ phi out := by
  induction rem generalizing j s v with
  | zero =>
    rcases lanLoop_step hH τ exm o δ hex hb hm phi hx hz 0 hr hi with h | ⟨_, h, _⟩
    · exact h
    · omega
  | succ rem ih =>
    rcases lanLoop_step hH τ exm o δ hex hb hm phi hx hz (rem + 1) hr hi with h | ⟨hw, _, he⟩
    · exact h
    · obtain ⟨v', hi', _⟩ := next_inv hH hi hw
      rw [he]
      exact ih (by omega) hi'

theorem applyExp_ok (H : E →L[𝕜] E) (hH : IsSelfAdjoint H) (τ : 𝕜) (exm : (n : Nat) → Matrix (Fin n) (Fin n) 𝕜 → Res (Matrix (Fin n) (Fin n) 𝕜))
    (o : AOpts) (δ : ℝ) (hex : ExpTo τ exm (o.maxIter + 2) (3 * ‖H‖ + 1) δ) (hb : 0 < o.betaTol) (hm : 2 ≤ o.maxIter) (phi : E) (hphi : phi ≠ 0)
    (hz : inner 𝕜 (H phi) phi ≠ 0 ∨ o.betaTol * ‖phi‖ ≤ ‖H phi‖) : ∃ out, applyExp H exm o phi = .ok out ∧ Good H τ o δ phi out := by
  have hn : ‖phi‖ ≠ 0 := norm_ne_zero_iff.2 hphi
  unfold applyExp
  rw [if_neg hn]
  obtain ⟨x0, hx0⟩ : ∃ x0, x0 = ((1 / ‖phi‖ : ℝ) : 𝕜) • phi := ⟨_, rfl⟩
  have hx : phi = (‖phi‖ : 𝕜) • x0 := by
    rw [hx0, smul_smul, ← RCLike.ofReal_mul, mul_one_div_cancel hn, RCLike.ofReal_one, one_smul]
  have hxn : ‖x0‖ = 1 := by
    rw [hx0, norm_smul, RCLike.norm_ofReal, abs_of_nonneg (by positivity), one_div_mul_cancel hn]
  obtain ⟨r, hr⟩ : ∃ r, o.maxIter = r + 1 := ⟨o.maxIter - 1, by omega⟩
  have hz' : inner 𝕜 (H x0) x0 ≠ 0 ∨ o.betaTol ≤ ‖H x0‖ := by
    rcases hz with h | h
    · left
      intro h0
      apply h
      rw [hx, map_smul, inner_smul_left, inner_smul_right, h0, mul_zero, mul_zero]
    · right
      rw [hx0, map_smul, norm_smul, RCLike.norm_ofReal, abs_of_nonneg (by positivity), one_div, ← div_eq_inv_mul, le_div_iff₀ (by positivity)]
      exact h
  have hi : Inv H x0 0 ⟨x0, 0, [x0], fun _ _ => 0, 0⟩ (fun _ => x0) := by
    refine ⟨by simp, rfl, rfl, fun h => absurd h (lt_irrefl _), ?_, fun i h => absurd h (by omega), fun _ _ => rfl, fun _ _ _ => rfl, rfl, fun _ _ _ => rfl, fun h => absurd h (lt_irrefl _)⟩
    intro a b ha hb
    rw [if_pos (by omega), inner_self_eq_norm_sq_to_K, hxn]; simp
  dsimp only
  rw [← hx0]
  have hrm : r + 1 + 0 = o.maxIter := by omega
  have h := lanLoop_ok hH τ exm o δ hex hb hm phi hx hz' r hrm hi
  rw [hr]
  exact h

/-- The error of `expMatrix` with the default degree, for the matrices which occur here. -/
def padeErr (τ : 𝕜) (H : E →L[𝕜] E) (o : AOpts) : ℝ :=
  (o.maxIter + 2) * (Real.exp (‖τ‖ * (3 * ‖H‖ + 1)) * (Real.exp ((1 + ‖τ‖ * (3 * ‖H‖ + 1)) / 10 ^ 15) - 1))

theorem entry_le {n : Nat} (F : Mx 𝕜 n) (a b : Fin n) : ‖F a b‖ ≤ infNorm F := by
  have h1 : ‖F a b‖₊ ≤ ∑ c, ‖F a c‖₊ := Finset.single_le_sum (f := fun c => ‖F a c‖₊) (fun _ _ => bot_le) (Finset.mem_univ b)
  have h2 : (∑ c, ‖F a c‖₊) ≤ Finset.univ.sup fun i => ∑ c, ‖F i c‖₊ := Finset.le_sup (f := fun i => ∑ c, ‖F i c‖₊) (Finset.mem_univ a)
  exact_mod_cast h1.trans h2

theorem infNorm_le {n : Nat} (F : Mx 𝕜 n) {b : ℝ} (hb : 0 ≤ b) (h : ∀ a, ∑ c, ‖F a c‖ ≤ b) : infNorm F ≤ b := by
  have : (Finset.univ.sup fun i => ∑ c, ‖F i c‖₊) ≤ (⟨b, hb⟩ : NNReal) := Finset.sup_le fun a _ => by
    have h1 : ((∑ c, ‖F a c‖₊ : NNReal) : ℝ) ≤ b := by rw [NNReal.coe_sum]; exact h a
    exact h1
  exact_mod_cast this

section Norm
attribute [local instance] Matrix.linftyOpNormedRing Matrix.linftyOpNormedAlgebra Matrix.linftyOpNormedAddCommGroup Matrix.linftyOpNormedSpace

theorem infNorm_exp {n : Nat} [Nonempty (Fin n)] (F : Mx 𝕜 n) : infNorm (exp F) ≤ Real.exp (infNorm F) := by
  let _ : NormedAlgebra ℝ (Mx 𝕜 n) := NormedAlgebra.restrictScalars ℝ 𝕜 _
  have : NormOneClass (Mx 𝕜 n) := Matrix.linfty_opNormOneClass
  have h := norm_exp_le_exp (𝔸 := Mx 𝕜 n) F
  rw [infNorm_eq, infNorm_eq]
  exact h

end Norm

omit [CompleteSpace E] in
/-- `expMatrix` as `applyExp` calls it. -/
theorem expMatrix_to (τ : 𝕜) (hτ : τ ≠ 0) (H : E →L[𝕜] E) (o : AOpts) : ExpTo τ (fun _ M => expMatrix M τ 6) (o.maxIter + 2) (3 * ‖H‖ + 1) (padeErr τ H o) := by
  intro n M hn hM hr
  have hb : 0 ≤ 3 * ‖H‖ + 1 := by positivity
  obtain ⟨X, h1, h2⟩ := C71_default_partial M τ (smul_ne_zero hτ hM)
  refine ⟨X, h1, ?_⟩
  have hn0 : 0 < n := by
    by_contra h
    have : n = 0 := by omega
    subst this
    exact hM (Subsingleton.elim _ _)
  have : Nonempty (Fin n) := ⟨⟨0, hn0⟩⟩
  have h3 : infNorm (τ • M) ≤ ‖τ‖ * (3 * ‖H‖ + 1) := by
    refine infNorm_le _ (by positivity) fun a => ?_
    simp only [Matrix.smul_apply, smul_eq_mul, norm_mul]
    rw [← Finset.mul_sum]
    exact mul_le_mul_of_nonneg_left (hr a) (norm_nonneg _)
  have h0 : 0 ≤ infNorm (τ • M) := NNReal.coe_nonneg _
  have h4 : infNorm (X - exp (τ • M)) ≤ Real.exp (‖τ‖ * (3 * ‖H‖ + 1)) * (Real.exp ((1 + ‖τ‖ * (3 * ‖H‖ + 1)) / 10 ^ 15) - 1) := by
    refine h2.trans ?_
    have h5 : (1 : ℝ) ≤ Real.exp ((1 + infNorm (τ • M)) / 10 ^ 15) := Real.one_le_exp (by positivity)
    refine mul_le_mul ((infNorm_exp _).trans (Real.exp_le_exp.2 h3)) ?_ (by linarith) (Real.exp_pos _).le
    have : (1 + infNorm (τ • M)) / 10 ^ 15 ≤ (1 + ‖τ‖ * (3 * ‖H‖ + 1)) / 10 ^ 15 := by gcongr
    linarith [Real.exp_le_exp.2 this]
  have h6 : ∀ a : Fin n, ‖col0 X a - col0 (exp (τ • M)) a‖ ≤ infNorm (X - exp (τ • M)) := by
    intro a
    have := entry_le (X - exp (τ • M)) a ⟨0, hn0⟩
    simpa [col0] using this
  have h7 : 0 ≤ infNorm (X - exp (τ • M)) := NNReal.coe_nonneg _
  calc ∑ a : Fin n, ‖col0 X a - col0 (exp (τ • M)) a‖ ≤ ∑ _a : Fin n, infNorm (X - exp (τ • M)) := Finset.sum_le_sum fun a _ => h6 a
    _ = n * infNorm (X - exp (τ • M)) := by simp
    _ ≤ padeErr τ H o := by
      unfold padeErr
      refine mul_le_mul ?_ h4 h7 (by positivity)
      exact_mod_cast hn

/-- **C72, the error.** For a Hermitian `H`, a time which is not zero, a vector which is not zero, at least two iterations and a positive cutoff, `applyExp` ends and returns `exp(τ H) φ` up to
the error of `expMatrix` and an error which is bounded by the cutoff, when the Lanczos sequence ended, or decreases faster than exponentially with the number `m` of iterations done; without
a tolerance these are all that were asked for. That `H φ` is (almost) zero is excluded, see `C72_null_counterexample`, and that the error is within the tolerance is false, see
`C72_tolerance_counterexample`. -/
theorem C72_error_partial (H : E →L[𝕜] E) (hH : IsSelfAdjoint H) (τ : 𝕜) (hτ : τ ≠ 0) (o : AOpts) (hb : 0 < o.betaTol) (hm : 2 ≤ o.maxIter) (phi : E) (hphi : phi ≠ 0)
    (hz : inner 𝕜 (H phi) phi ≠ 0 ∨ o.betaTol * ‖phi‖ ≤ ‖H phi‖) :
    ∃ out, applyExp H (fun _ M => expMatrix M τ 6) o phi = .ok out ∧
      (‖out - exp (τ • H) phi‖ ≤ ‖phi‖ * (Real.exp (‖τ‖ * ‖H‖) * (‖τ‖ * o.betaTol) + padeErr τ H o) ∨
        ∃ m, 2 ≤ m ∧ m ≤ o.maxIter ∧ (o.tol ≤ 0 → m = o.maxIter) ∧
          ‖out - exp (τ • H) phi‖ ≤ ‖phi‖ * (Real.exp (‖τ‖ * ‖H‖) * ((‖τ‖ * ‖H‖) ^ (m + 1) / (m ! : ℝ)) + padeErr τ H o)) := by
  obtain ⟨out, h1, h2⟩ := applyExp_ok H hH τ _ o _ (expMatrix_to τ hτ H o) hb hm phi hphi hz
  refine ⟨out, h1, ?_⟩
  rcases h2 with h | ⟨m, a, b, c, _, d, _⟩
  · left; refine h.1.trans (le_of_eq ?_); ring
  · right; exact ⟨m, a, b, c, d⟩

/-- **C72, the length.** For an imaginary time the length of the vector does not decrease. -/
theorem C72_norm_partial (H : E →L[𝕜] E) (hH : IsSelfAdjoint H) (τ : 𝕜) (hτ : τ ≠ 0) (hre : RCLike.re τ = 0) (o : AOpts) (hb : 0 < o.betaTol) (hm : 2 ≤ o.maxIter) (phi : E) (hphi : phi ≠ 0)
    (hz : inner 𝕜 (H phi) phi ≠ 0 ∨ o.betaTol * ‖phi‖ ≤ ‖H phi‖) :
    ∃ out, applyExp H (fun _ M => expMatrix M τ 6) o phi = .ok out ∧ ‖phi‖ * (1 - padeErr τ H o) ≤ ‖out‖ := by
  obtain ⟨out, h1, h2⟩ := applyExp_ok H hH τ _ o _ (expMatrix_to τ hτ H o) hb hm phi hphi hz
  refine ⟨out, h1, ?_⟩
  rcases h2 with h | ⟨m, _, _, _, _, _, d⟩
  · have := (abs_le.1 (h.2 hre).1).1
    linarith
  · have := d hre
    linarith

/-- **C72, all iterations.** When no tolerance is set and there are at least as many iterations as dimensions, only the cutoff and `expMatrix` limit the accuracy; for an imaginary time the
length is kept. -/
theorem C72_exhaust_partial [FiniteDimensional 𝕜 E] (H : E →L[𝕜] E) (hH : IsSelfAdjoint H) (τ : 𝕜) (hτ : τ ≠ 0) (o : AOpts) (hb : 0 < o.betaTol) (hm : 2 ≤ o.maxIter)
    (hd : Module.finrank 𝕜 E ≤ o.maxIter) (ht : o.tol ≤ 0) (phi : E) (hphi : phi ≠ 0) (hz : inner 𝕜 (H phi) phi ≠ 0 ∨ o.betaTol * ‖phi‖ ≤ ‖H phi‖) :
    ∃ out, applyExp H (fun _ M => expMatrix M τ 6) o phi = .ok out ∧ ‖out - exp (τ • H) phi‖ ≤ ‖phi‖ * (Real.exp (‖τ‖ * ‖H‖) * (‖τ‖ * o.betaTol) + padeErr τ H o) ∧
      (RCLike.re τ = 0 → |‖out‖ - ‖phi‖| ≤ ‖phi‖ * padeErr τ H o ∧ ‖out - exp (τ • H) phi‖ ≤ ‖phi‖ * (‖τ‖ * o.betaTol + padeErr τ H o)) := by
  obtain ⟨out, h1, h2⟩ := applyExp_ok H hH τ _ o _ (expMatrix_to τ hτ H o) hb hm phi hphi hz
  refine ⟨out, h1, ?_⟩
  rcases h2 with h | ⟨m, _, _, c, ⟨e, he⟩, _, _⟩
  · exact ⟨h.1.trans (le_of_eq (by ring)), h.2⟩
  · have := he.linearIndependent.fintype_card_le_finrank
    rw [Fintype.card_fin, c ht] at this
    omega

end Verif.Expo
