import Verif.MPS.ApplyMPO
import Mathlib.Analysis.InnerProductSpace.Projection.Basic

/-! # The best approximation of given rank, and the number of states kept -/

noncomputable section

namespace Verif.ApplyMPO

open Finset

variable {𝕜 : Type*} [RCLike 𝕜]

/-- Weights between 0 and 1 of total at most `m` give at most the sum of the `m` largest values. -/
theorem weighted_le {lam p : Nat → ℝ} (ha : ∀ i j, i ≤ j → lam j ≤ lam i) (h0 : ∀ i, 0 ≤ lam i) (n m : Nat) (hp : ∀ k < n, 0 ≤ p k ∧ p k ≤ 1)
    (hs : ∑ k ∈ range n, p k ≤ m) : ∑ k ∈ range n, lam k * p k ≤ ∑ k ∈ range m, lam k := by
  have h1 : ∑ k ∈ range n, (lam k - lam m) * p k ≤ ∑ k ∈ range m, (lam k - lam m) := by
    have e : ∀ k ∈ range n, (lam k - lam m) * p k ≤ if k < m then lam k - lam m else 0 := by
      intro k hk
      obtain ⟨p0, p1⟩ := hp k (by simpa using hk)
      split_ifs with h
      · have := ha k m h.le
        nlinarith
      · have := ha m k (by omega)
        nlinarith
    refine (sum_le_sum e).trans ?_
    rw [← sum_filter]
    refine sum_le_sum_of_subset_of_nonneg (fun k => by simp) fun k hk _ => ?_
    have := ha k m (by simp at hk; omega)
    linarith
  have h2 : ∑ k ∈ range n, lam k * p k = ∑ k ∈ range n, (lam k - lam m) * p k + lam m * ∑ k ∈ range n, p k := by
    rw [mul_sum, ← sum_add_distrib]
    exact sum_congr rfl fun k _ => by ring
  have h3 : ∑ k ∈ range m, lam k = ∑ k ∈ range m, (lam k - lam m) + lam m * m := by
    rw [sum_sub_distrib]
    simp
    ring
  rw [h2, h3]
  have := mul_le_mul_of_nonneg_left hs (h0 m)
  linarith

/-- No family of vectors from a space of dimension `m` is closer than the discarded weight. -/
theorem eckart {E P : Type*} [NormedAddCommGroup E] [InnerProductSpace 𝕜 E] [FiniteDimensional 𝕜 E] [Fintype P] (f y : P → E) (S : Submodule 𝕜 E) {m : Nat}
    (hS : Module.finrank 𝕜 S ≤ m) (hy : ∀ p, y p ∈ S) {n : Nat} {u : Fin n → E} (hu : Orthonormal 𝕜 u) {lam : Nat → ℝ} (ha : ∀ i j, i ≤ j → lam j ≤ lam i)
    (h0 : ∀ i, 0 ≤ lam i) (hl : ∀ v : E, ∑ p, ‖inner 𝕜 v (f p)‖ ^ 2 = ∑ k : Fin n, lam k * ‖inner 𝕜 v (u k)‖ ^ 2) :
    ∑ p, ‖f p‖ ^ 2 ≤ ∑ p, ‖f p - y p‖ ^ 2 + ∑ k ∈ range m, lam k := by
  have h1 : ∀ p, ‖f p‖ ^ 2 ≤ ‖f p - y p‖ ^ 2 + ‖S.orthogonalProjectionOnto (f p)‖ ^ 2 := by
    intro p
    have e1 := Submodule.norm_sq_eq_add_norm_sq_projection (f p) S
    have e2 := Submodule.norm_sq_eq_add_norm_sq_projection (f p - y p) S
    have e3 : Sᗮ.orthogonalProjectionOnto (y p) = 0 := by
      rw [Submodule.orthogonalProjectionOnto_eq_zero_iff]
      exact Submodule.le_orthogonal_orthogonal _ (hy p)
    rw [map_sub Sᗮ.orthogonalProjectionOnto, e3, sub_zero] at e2
    rw [e1, e2]
    have := sq_nonneg ‖S.orthogonalProjectionOnto (f p - y p)‖
    linarith
  refine (sum_le_sum fun p _ => h1 p).trans ?_
  rw [sum_add_distrib]
  refine add_le_add_right ?_ _
  let b := stdOrthonormalBasis 𝕜 S
  have hb : Orthonormal 𝕜 (fun i => (b i : E)) := b.orthonormal.comp_linearIsometry S.subtypeₗᵢ
  have h2 : ∀ p, ‖S.orthogonalProjectionOnto (f p)‖ ^ 2 = ∑ i, ‖inner 𝕜 (b i : E) (f p)‖ ^ 2 := by
    intro p
    rw [← b.sum_sq_norm_inner_right]
    exact sum_congr rfl fun i _ => by rw [Submodule.inner_orthogonalProjectionOnto_eq_of_mem_left]
  simp only [h2]
  rw [sum_comm]
  simp only [hl]
  rw [sum_comm]
  simp only [← mul_sum]
  let p : Nat → ℝ := fun k => if h : k < n then ∑ i, ‖inner 𝕜 (b i : E) (u ⟨k, h⟩)‖ ^ 2 else 0
  have e : ∑ k : Fin n, lam k * ∑ i, ‖inner 𝕜 (b i : E) (u k)‖ ^ 2 = ∑ k ∈ range n, lam k * p k := by
    rw [← Fin.sum_univ_eq_sum_range (fun k => lam k * p k)]
    exact sum_congr rfl fun k _ => by simp [p]
  rw [e]
  refine weighted_le ha h0 n m (fun k hk => ?_) ?_
  · simp only [p, dif_pos hk]
    refine ⟨sum_nonneg fun _ _ => by positivity, ?_⟩
    refine (hb.sum_inner_products_le (x := u ⟨k, hk⟩) (s := univ)).trans ?_
    rw [hu.1, one_pow]
  · rw [← Fin.sum_univ_eq_sum_range p]
    have e2 : ∑ k : Fin n, p k = ∑ i, ∑ k : Fin n, ‖inner 𝕜 (u k) (b i : E)‖ ^ 2 := by
      rw [sum_comm]
      refine sum_congr rfl fun k _ => ?_
      simp only [p, k.2, dif_pos]
      exact sum_congr rfl fun i _ => by rw [norm_inner_symm]
    rw [e2]
    refine (sum_le_sum fun i _ => (hu.sum_inner_products_le (x := (b i : E)) (s := univ)).trans (le_of_eq ?_)).trans (b := ∑ _i, (1 : ℝ)) ?_
    · rw [hb.1, one_pow]
    · simpa using hS

/-! ## Number of states -/

theorem drop_nonneg {P : List ℝ} (h : ∀ x ∈ P, 0 ≤ x) (k : Nat) : 0 ≤ (P.drop k).sum := List.sum_nonneg fun x hx => h x (List.mem_of_mem_drop hx)

theorem drop_anti {P : List ℝ} (h : ∀ x ∈ P, 0 ≤ x) {j k : Nat} (hjk : j ≤ k) : (P.drop k).sum ≤ (P.drop j).sum := by
  obtain ⟨i, rfl⟩ := Nat.exists_eq_add_of_le hjk
  rw [← List.drop_drop]
  conv_rhs => rw [← List.take_append_drop i (P.drop j), List.sum_append]
  have := List.sum_nonneg (l := (P.drop j).take i) fun x hx => h x (List.mem_of_mem_drop (List.mem_of_mem_take hx))
  linarith

theorem get_le_drop {P : List ℝ} (h : ∀ x ∈ P, 0 ≤ x) {j k : Nat} (hjk : j ≤ k) (hk : k < P.length) : P[k] ≤ (P.drop j).sum := by
  refine le_trans ?_ (drop_anti h hjk)
  rw [List.drop_eq_getElem_cons hk, List.sum_cons]
  have := drop_nonneg h (k + 1)
  linarith

/-- What `truncate` keeps of nonnegative values: with degeneracies respected, provided the values beyond `MaxDim` are zero. -/
theorem keep_all {eps c : ℝ} (he : 0 < eps) {P : List ℝ} (hP : P ≠ []) (hd : Decomp.Desc P) (h0 : ∀ x ∈ P, 0 ≤ x) (hc : 0 ≤ c) {M : Int} (hM : 1 ≤ M)
    (hz : (P.drop M.toNat).sum = 0) (respect : Bool) : ∃ out, Decomp.truncate eps ⟨M, 1, c, false, true, respect⟩ P = .ok out ∧
      out.P.length ≤ P.length ∧ 1 ≤ out.P.length ∧ (out.P.length : Int) ≤ M ∧ (P.drop out.P.length).sum ≤ c * P.sum := by
  have hs : 0 ≤ P.sum := List.sum_nonneg h0
  match P, hP with
  | [p], _ =>
    have : ∃ out, Decomp.truncate eps ⟨M, 1, c, false, true, respect⟩ [p] = .ok out ∧ out.P = [p] := by
      by_cases hp : p = 0
      · exact ⟨⟨[p], 0, -eps, eps, 1⟩, by rw [Decomp.truncate, if_pos hp], rfl⟩
      · exact ⟨⟨[p], 0, p - p / 1000, p + p / 1000, 1⟩, by rw [Decomp.truncate, if_neg hp], rfl⟩
    obtain ⟨out, e, e'⟩ := this
    refine ⟨out, e, ?_⟩
    rw [e']
    simp only [List.length_singleton, Nat.cast_one, le_refl, List.drop_one, List.tail_cons, List.sum_nil, true_and]
    exact ⟨hM, by positivity⟩
  | p :: p' :: l, _ =>
    by_cases hp : p = 0
    · refine ⟨⟨[p], 0, -eps, eps, 1⟩, by rw [Decomp.truncate, if_pos hp], by simp, by simp, by simpa using hM, ?_⟩
      have : ∀ x ∈ p' :: l, x = 0 := by
        intro x hx
        have h1 := h0 x (List.mem_cons_of_mem _ hx)
        have h2 := (List.pairwise_cons.1 hd).1 x hx
        linarith
      have : (p' :: l).sum = 0 := List.sum_eq_zero this
      simp only [List.length_singleton, List.drop_one, List.tail_cons]
      rw [this]
      positivity
    have hp : 0 < p := lt_of_le_of_ne (h0 p (by simp)) (Ne.symm hp)
    have hW : Decomp.weights (p :: p' :: l) = p :: p' :: l := by
      unfold Decomp.weights
      refine (List.map_congr_left fun x hx => ?_).trans (List.map_id _)
      exact max_eq_left (h0 x hx)
    obtain ⟨W, k, v, below, above, rfl, hcut, hv, hg, ht⟩ := Decomp.truncate_long (eps := eps) ⟨M, 1, c, false, true, respect⟩ hd hp he hM le_rfl
    rw [hW] at *
    have hP0 : 0 < (p :: p' :: l).getD 0 0 := by simpa using hp
    generalize p :: p' :: l = P at *
    have hk := hcut.le
    have hk1 := hcut.pos
    have hkM := hcut.max
    dsimp only at hkM
    have hal := hg.above_le
    have hsum : (P.drop k).sum ≤ c * P.sum := by
      by_cases e1 : k = P.length
      · rw [e1, List.drop_length, List.sum_nil]; positivity
      · by_cases e2 : (k : Int) = M
        · rw [show k = M.toNat by omega, hz]; positivity
        · have := hcut.sumAll rfl (by dsimp only; omega) (by omega)
          simpa using this
    have hM2 : ¬ M < (k + above : Nat) := by
      intro hlt
      obtain ⟨hv1, hv2⟩ := List.getElem?_eq_some_iff.1 hv
      obtain ⟨hi, hi2⟩ := hg.above_mem (k + above - 1) (by omega) (by omega)
      have hzero : P[k + above - 1] = 0 := by
        have := get_le_drop h0 (j := M.toNat) (k := k + above - 1) (by omega) hi
        have := h0 _ (List.getElem_mem hi)
        linarith
      rw [hzero, zero_sub, abs_neg, abs_of_nonneg (hv2 ▸ h0 _ (List.getElem_mem hv1))] at hi2
      unfold Decomp.tolOf at hi2
      by_cases hv0 : v = 0
      · by_cases hk2 : k = 1
        · subst hk2
          rw [List.getD_eq_getElem?_getD, List.getElem?_eq_getElem (by omega), Option.getD_some] at hP0
          simp only [Nat.sub_self] at hv2
          linarith
        · have h4 := hcut.sumStop rfl (by dsimp only; omega)
          simp only [if_true] at h4
          have h5 : (P.drop (k - 1)).sum = 0 := by
            refine List.sum_eq_zero fun x hx => ?_
            obtain ⟨i, hi, rfl⟩ := List.getElem_of_mem hx
            rw [List.getElem_drop]
            have h6 := Decomp.desc_get hd (i := k - 1) (j := k - 1 + i) (by omega) (by simp at hi; omega)
            have := h0 _ (List.getElem_mem (l := P) (n := k - 1 + i) (by simp at hi; omega))
            linarith
          rw [h5] at h4
          have := mul_nonneg hc hs
          linarith
      · rw [if_neg hv0] at hi2
        have : 0 ≤ v := hv2 ▸ h0 _ (List.getElem_mem hv1)
        linarith
    set fin := (if respect && decide (below + above > 1) then
            if M < (k + above : Nat) then (k - below, 0) else (k + above, below + above)
          else (k, below)) with hfin
    have hf : k ≤ fin.1 ∧ fin.1 ≤ k + above := by
      rw [hfin, if_neg hM2]
      split_ifs <;> dsimp only <;> omega
    refine ⟨_, ht, ?_⟩
    dsimp only
    rw [List.length_take, min_eq_left (by omega)]
    exact ⟨by omega, by omega, by omega, (drop_anti h0 hf.1).trans hsum⟩

/-- Without respecting degeneracies. -/
theorem keep_max {eps c : ℝ} (he : 0 < eps) {P : List ℝ} (hP : P ≠ []) (hd : Decomp.Desc P) (h0 : ∀ x ∈ P, 0 ≤ x) (hc : 0 ≤ c) {M : Int} (hM : 1 ≤ M) :
    ∃ out, Decomp.truncate eps ⟨M, 1, c, false, true, false⟩ P = .ok out ∧
      out.P.length ≤ P.length ∧ 1 ≤ out.P.length ∧ (out.P.length : Int) ≤ M ∧ (P.drop out.P.length).sum ≤ max (P.drop M.toNat).sum (c * P.sum) := by
  have hs : 0 ≤ P.sum := List.sum_nonneg h0
  match P, hP with
  | p :: l, _ =>
    by_cases hp : p = 0
    · have hz : ∀ x ∈ p :: l, x = 0 := by
        intro x hx
        rcases List.mem_cons.1 hx with rfl | hx
        · exact hp
        have h1 := h0 x (List.mem_cons_of_mem _ hx)
        have h2 := (List.pairwise_cons.1 hd).1 x hx
        linarith
      obtain ⟨out, e, h1, h2, h3, h4⟩ := keep_all he (P := p :: l) (by simp) hd h0 hc hM (List.sum_eq_zero fun x hx => hz x (List.mem_of_mem_drop hx)) false
      exact ⟨out, e, h1, h2, h3, h4.trans (le_max_right _ _)⟩
    have hp : 0 < p := lt_of_le_of_ne (h0 p (by simp)) (Ne.symm hp)
    have hW : Decomp.weights (p :: l) = p :: l := by
      unfold Decomp.weights
      refine (List.map_congr_left fun x hx => ?_).trans (List.map_id _)
      exact max_eq_left (h0 x hx)
    obtain ⟨out, m, e, e1, e2, h1, h2, h3, h4, -⟩ := Decomp.C34_truncate_partial (eps := eps) he ⟨M, 1, c, false, true, false⟩ hd hp hM le_rfl rfl
    rw [hW] at *
    have e3 : m ≤ (p :: l).length := by
      rw [← e2, e1, List.length_take]
      exact min_le_right _ _
    dsimp only at h2
    refine ⟨out, e, by omega, by omega, by omega, ?_⟩
    rw [e2]
    by_cases c1 : m = (p :: l).length
    · rw [c1, List.drop_length, List.sum_nil]
      exact le_max_of_le_right (by positivity)
    · by_cases c2 : (m : Int) = M
      · rw [show m = M.toNat by omega]
        exact le_max_left _ _
      · have := (h4 rfl).2 (by dsimp only; omega) (by omega)
        simp only [if_true] at this
        exact this.trans (le_max_right _ _)

end Verif.ApplyMPO
