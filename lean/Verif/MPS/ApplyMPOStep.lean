import Verif.MPS.ApplyMPOProps

/-! # One step of the sweep -/

noncomputable section

namespace Verif.ApplyMPO

open Finset Verif.Limits Verif.DmrgNum

variable {𝕜 : Type*} [RCLike 𝕜]

theorem sum_getD (D : List ℝ) : ∀ M : Nat, ∑ k ∈ range M, D.getD k 0 = (D.take M).sum := by
  induction D with
  | nil => intro M; simp
  | cons x D ih =>
    intro M
    cases M with
    | zero => simp
    | succ M => rw [sum_range_succ', List.take_succ_cons, List.sum_cons, ← ih M, add_comm]; simp

theorem take_drop_sum (D : List ℝ) (m : Nat) : (D.take m).sum + (D.drop m).sum = D.sum := by
  rw [← List.sum_append, List.take_append_drop]

/-- Columns `0..m-1` are orthonormal. -/
def Cols (d r m : Nat) (U : Nat → Nat → Nat → 𝕜) : Prop := ∀ k < m, ∀ k' < m,
  ∑ s ∈ range d, ∑ b ∈ range r, (starRingEnd 𝕜) (U s b k) * U s b k' = if k = k' then 1 else 0

theorem Cols.orthonormal {d r m : Nat} {U : Nat → Nat → Nat → 𝕜} (h : Cols d r m U) :
    Orthonormal 𝕜 fun k : Fin m => vec d r fun s b => (starRingEnd 𝕜) (U s b k) := by
  rw [orthonormal_iff_ite]
  intro k k'
  rw [inner_vec]
  have := h k' k'.2 k k.2
  simp only [RCLike.conj_conj, mul_comm ((starRingEnd 𝕜) (U _ _ k'))] at this ⊢
  rw [this]
  simp [Fin.ext_iff, eq_comm]

theorem inner_col (d r : Nat) (U : Nat → Nat → Nat → 𝕜) (k : Nat) (f : Nat → Nat → 𝕜) :
    inner 𝕜 (vec d r fun s b => (starRingEnd 𝕜) (U s b k)) (vec d r f) = ∑ s ∈ range d, ∑ b ∈ range r, U s b k * f s b := by
  rw [inner_vec]
  simp only [RCLike.conj_conj]

/-- The diagonalization keeps enough. `f` are the rows of the state, `y` those of another one of rank `K`. -/
theorem diag_step {T : Tools 𝕜} (hT : EigOK T) {c : ℝ} (hc : 0 ≤ c) {P : Type*} [Fintype P] {d r : Nat} (hd : 1 ≤ d) (hr : 1 ≤ r) (f : P → Nat → Nat → 𝕜)
    {ρ : Nat → Nat → Nat → Nat → 𝕜} (hρ : ∀ s b s₁ b₁, ρ s b s₁ b₁ = ∑ p, f p s b * (starRingEnd 𝕜) (f p s₁ b₁)) {K : Nat} (x : P → Nat → 𝕜) (z : Nat → Nat → Nat → 𝕜)
    (maxdim : Option Int) (respect : Bool) (hM : 1 ≤ maxdim.getD (d * r : Nat))
    (hK : ((d * r : Nat) : Int) ≤ maxdim.getD (d * r : Nat) ∨ ((K : Int) ≤ maxdim.getD (d * r : Nat) ∧
      (respect = false ∨ ∀ p, ∀ s < d, ∀ b < r, f p s b = ∑ k ∈ range K, x p k * z k s b))) :
    ∃ m U, diagPosSemiDef T c maxdim respect d r ρ = .ok (m, U) ∧ 1 ≤ m ∧ m ≤ d * r ∧ (m : Int) ≤ maxdim.getD (d * r : Nat) ∧ Cols d r m U ∧
      ∑ p, ‖vec d r (f p)‖ ^ 2 ≤ ∑ p, ∑ k ∈ range m, ‖∑ s ∈ range d, ∑ b ∈ range r, U s b k * f p s b‖ ^ 2 +
        max (∑ p, ‖vec d r (f p) - vec d r (fun s b => ∑ k ∈ range K, x p k * z k s b)‖ ^ 2) (c * ∑ p, ‖vec d r (f p)‖ ^ 2) := by
  set M := maxdim.getD (d * r : Nat) with hMd
  have hherm : ∀ s < d, ∀ b < r, ∀ s' < d, ∀ b' < r, ρ s b s' b' = (starRingEnd 𝕜) (ρ s' b' s b) := by
    intro s _ b _ s' _ b' _
    rw [hρ, hρ, map_sum]
    exact sum_congr rfl fun p _ => by rw [map_mul, RCLike.conj_conj, mul_comm]
  set q := T.eig d r ρ with hq
  have hlen : q.1.length = d * r := hT.len d r ρ
  have hdesc := hT.desc d r ρ
  have hcols : Cols d r (d * r) q.2 := hT.ortho d r ρ
  have heig := hT.eig d r ρ hherm
  rw [← hq] at hdesc heig
  set D := q.1
  set U := q.2
  let u : Fin (d * r) → EuclideanSpace 𝕜 (Fin d × Fin r) := fun k => vec d r fun s b => (starRingEnd 𝕜) (U s b k)
  have hu : Orthonormal 𝕜 u := hcols.orthonormal
  have hl : ∀ v, ∑ p, ‖inner 𝕜 v (vec d r (f p))‖ ^ 2 = ∑ k : Fin (d * r), D.getD k 0 * ‖inner 𝕜 v (u k)‖ ^ 2 := by
    intro v
    obtain ⟨g, rfl⟩ : ∃ g, v = vec d r g := by
      refine ⟨fun s b => if h : s < d ∧ b < r then v (⟨s, h.1⟩, ⟨b, h.2⟩) else 0, ?_⟩
      ext i
      simp [vec]
    have e1 : ∀ z : 𝕜, ((‖z‖ ^ 2 : ℝ) : 𝕜) = z * (starRingEnd 𝕜) z := fun z => by rw [RCLike.mul_conj, RCLike.ofReal_pow]
    have e2 : (((∑ p, ‖inner 𝕜 (vec d r g) (vec d r (f p))‖ ^ 2 : ℝ)) : 𝕜) = ((∑ k : Fin (d * r), D.getD k 0 * ‖inner 𝕜 (vec d r g) (u k)‖ ^ 2 : ℝ) : 𝕜) := by
      rw [RCLike.ofReal_sum, RCLike.ofReal_sum]
      have l1 : ∀ p, ((‖inner 𝕜 (vec d r g) (vec d r (f p))‖ ^ 2 : ℝ) : 𝕜) = ∑ s ∈ range d, ∑ b ∈ range r, ∑ s₁ ∈ range d, ∑ b₁ ∈ range r,
          (starRingEnd 𝕜) (g s b) * g s₁ b₁ * (f p s b * (starRingEnd 𝕜) (f p s₁ b₁)) := by
        intro p
        rw [e1, inner_vec, map_sum, sum_mul]
        refine sum_congr rfl fun s _ => ?_
        rw [sum_mul]
        refine sum_congr rfl fun b _ => ?_
        rw [mul_sum]
        refine sum_congr rfl fun s₁ _ => ?_
        rw [map_sum, mul_sum]
        refine sum_congr rfl fun b₁ _ => ?_
        rw [map_mul, RCLike.conj_conj]
        ring
      have l2 : ∀ k : Nat, ((D.getD k 0 * ‖inner 𝕜 (vec d r g) (vec d r fun s b => (starRingEnd 𝕜) (U s b k))‖ ^ 2 : ℝ) : 𝕜) =
          ∑ s ∈ range d, ∑ b ∈ range r, ∑ s₁ ∈ range d, ∑ b₁ ∈ range r,
            (starRingEnd 𝕜) (g s b) * g s₁ b₁ * ((starRingEnd 𝕜) (U s b k) * ((D.getD k 0 : ℝ) : 𝕜) * U s₁ b₁ k) := by
        intro k
        rw [RCLike.ofReal_mul, e1, inner_vec, map_sum, sum_mul, mul_sum]
        refine sum_congr rfl fun s _ => ?_
        rw [sum_mul, mul_sum]
        refine sum_congr rfl fun b _ => ?_
        rw [mul_sum, mul_sum]
        refine sum_congr rfl fun s₁ _ => ?_
        rw [map_sum, mul_sum, mul_sum]
        refine sum_congr rfl fun b₁ _ => ?_
        rw [map_mul, RCLike.conj_conj, RCLike.conj_conj]
        ring
      simp only [l1]
      have l3 : ∑ k : Fin (d * r), ((D.getD k 0 * ‖inner 𝕜 (vec d r g) (u k)‖ ^ 2 : ℝ) : 𝕜) =
          ∑ k ∈ range (d * r), ((D.getD k 0 * ‖inner 𝕜 (vec d r g) (vec d r fun s b => (starRingEnd 𝕜) (U s b k))‖ ^ 2 : ℝ) : 𝕜) :=
        (Finset.sum_range fun k : Nat => ((D.getD k 0 * ‖inner 𝕜 (vec d r g) (vec d r fun s b => (starRingEnd 𝕜) (U s b k))‖ ^ 2 : ℝ) : 𝕜)).symm
      rw [l3]
      simp only [l2]
      refine Eq.trans sum_comm (Eq.trans ?_ sum_comm)
      refine sum_congr rfl fun s hs => ?_
      refine Eq.trans sum_comm (Eq.trans ?_ sum_comm)
      refine sum_congr rfl fun b hb => ?_
      refine Eq.trans sum_comm (Eq.trans ?_ sum_comm)
      refine sum_congr rfl fun s₁ hs₁ => ?_
      refine Eq.trans sum_comm (Eq.trans ?_ sum_comm)
      refine sum_congr rfl fun b₁ hb₁ => ?_
      rw [← mul_sum, ← mul_sum, ← hρ, heig s (by simpa using hs) b (by simpa using hb) s₁ (by simpa using hs₁) b₁ (by simpa using hb₁)]
    exact_mod_cast e2
  have hcol : ∀ k : Fin (d * r), ∑ p, ‖inner 𝕜 (u k) (vec d r (f p))‖ ^ 2 = D.getD k 0 := by
    intro k
    rw [hl, sum_eq_single k]
    · rw [@inner_self_eq_norm_sq_to_K 𝕜, hu.1]; simp
    · intro k' _ hk'
      rw [hu.2 (Ne.symm hk')]; simp
    · simp
  have h0 : ∀ k, 0 ≤ D.getD k 0 := by
    intro k
    by_cases hk : k < d * r
    · rw [← hcol ⟨k, hk⟩]
      exact sum_nonneg fun _ _ => by positivity
    · rw [List.getD_eq_getElem?_getD, List.getElem?_eq_none (by omega), Option.getD_none]
  have h0' : ∀ x ∈ D, 0 ≤ x := by
    intro x hx
    obtain ⟨i, hi, rfl⟩ := List.getElem_of_mem hx
    have := h0 i
    rwa [List.getD_eq_getElem?_getD, List.getElem?_eq_getElem hi, Option.getD_some] at this
  have ha : ∀ i j, i ≤ j → D.getD j 0 ≤ D.getD i 0 := by
    intro i j hij
    by_cases hj : j < D.length
    · rw [List.getD_eq_getElem?_getD, List.getD_eq_getElem?_getD, List.getElem?_eq_getElem hj, List.getElem?_eq_getElem (by omega)]
      exact Decomp.desc_get hdesc hij hj
    · rw [List.getD_eq_getElem?_getD, List.getElem?_eq_none (by omega), Option.getD_none]
      exact h0 i
  have htot : ∑ p, ‖vec d r (f p)‖ ^ 2 = D.sum := by
    have e1 : (((∑ p, ‖vec d r (f p)‖ ^ 2 : ℝ)) : 𝕜) = ((D.sum : ℝ) : 𝕜) := by
      have e2 : D.sum = ∑ k ∈ range (d * r), D.getD k 0 := by rw [sum_getD, ← hlen, List.take_length]
      rw [e2, RCLike.ofReal_sum, RCLike.ofReal_sum]
      have l1 : ∀ p, ((‖vec d r (f p)‖ ^ 2 : ℝ) : 𝕜) = ∑ s ∈ range d, ∑ b ∈ range r, f p s b * (starRingEnd 𝕜) (f p s b) := by
        intro p
        rw [norm_vec, RCLike.ofReal_sum]
        refine sum_congr rfl fun s _ => ?_
        rw [RCLike.ofReal_sum]
        exact sum_congr rfl fun b _ => by rw [RCLike.mul_conj, RCLike.ofReal_pow]
      simp only [l1]
      have l2 : ∀ k ∈ range (d * r), ((D.getD k 0 : ℝ) : 𝕜) = ∑ s ∈ range d, ∑ b ∈ range r, (starRingEnd 𝕜) (U s b k) * ((D.getD k 0 : ℝ) : 𝕜) * U s b k := by
        intro k hk
        have := hcols k (by simpa using hk) k (by simpa using hk)
        rw [if_pos rfl] at this
        conv_lhs => rw [← mul_one ((D.getD k 0 : ℝ) : 𝕜), ← this, mul_sum]
        refine sum_congr rfl fun s _ => ?_
        rw [mul_sum]
        exact sum_congr rfl fun b _ => by ring
      rw [sum_congr rfl l2]
      refine Eq.trans sum_comm (Eq.trans ?_ sum_comm)
      refine sum_congr rfl fun s hs => ?_
      refine Eq.trans sum_comm (Eq.trans ?_ sum_comm)
      refine sum_congr rfl fun b hb => ?_
      rw [← hρ, heig s (by simpa using hs) b (by simpa using hb) s (by simpa using hs) b (by simpa using hb)]
    exact_mod_cast e1
  have hrank : ∀ y : P → EuclideanSpace 𝕜 (Fin d × Fin r), (∀ p, y p = vec d r fun s b => ∑ k ∈ range K, x p k * z k s b) → (K : Int) ≤ M →
      (D.drop M.toNat).sum ≤ ∑ p, ‖vec d r (f p) - y p‖ ^ 2 := by
    intro y hy hKM
    let S : Submodule 𝕜 (EuclideanSpace 𝕜 (Fin d × Fin r)) := Submodule.span 𝕜 (Set.range fun k : Fin K => vec d r (z k))
    have hS : Module.finrank 𝕜 S ≤ M.toNat := by
      refine (finrank_range_le_card _).trans ?_
      rw [Fintype.card_fin]
      omega
    have hyS : ∀ p, y p ∈ S := by
      intro p
      have : y p = ∑ k : Fin K, x p k • vec d r (z k) := by
        rw [hy]
        ext i
        simp only [vec, WithLp.ofLp_sum, WithLp.ofLp_smul, Finset.sum_apply, Pi.smul_apply, smul_eq_mul]
        exact Finset.sum_range fun k : Nat => x p k * z k i.1 i.2
      rw [this]
      exact Submodule.sum_mem _ fun k _ => Submodule.smul_mem _ _ (Submodule.subset_span ⟨k, rfl⟩)
    have := eckart (fun p => vec d r (f p)) y S hS hyS hu ha h0 hl
    rw [sum_getD, htot] at this
    have := take_drop_sum D M.toNat
    linarith
  have hDne : D ≠ [] := by
    intro e
    rw [e, List.length_nil] at hlen
    have := Nat.mul_pos hd hr
    omega
  have key : ∃ out, Decomp.truncate T.eps ⟨M, 1, c, false, true, respect⟩ D = .ok out ∧ out.P.length ≤ D.length ∧ 1 ≤ out.P.length ∧ (out.P.length : Int) ≤ M ∧
      (D.drop out.P.length).sum ≤ max (∑ p, ‖vec d r (f p) - vec d r (fun s b => ∑ k ∈ range K, x p k * z k s b)‖ ^ 2) (c * D.sum) := by
    rcases hK with hK | ⟨hK, hK'⟩
    · obtain ⟨out, e, h1, h2, h3, h4⟩ := keep_all hT.eps hDne hdesc h0' hc hM (by rw [List.drop_eq_nil_of_le (by omega), List.sum_nil]) respect
      exact ⟨out, e, h1, h2, h3, h4.trans (le_max_right _ _)⟩
    · have hb := hrank _ (fun _ => rfl) hK
      rcases hK' with rfl | hK'
      · obtain ⟨out, e, h1, h2, h3, h4⟩ := keep_max hT.eps hDne hdesc h0' hc hM
        exact ⟨out, e, h1, h2, h3, h4.trans (max_le_max hb le_rfl)⟩
      · have hz : ∀ p, vec d r (f p) = vec d r (fun s b => ∑ k ∈ range K, x p k * z k s b) := by
          intro p
          ext i
          exact hK' p i.1 i.1.2 i.2 i.2.2
        simp only [← hz, sub_self, norm_zero] at hb
        have hz0 : (D.drop M.toNat).sum = 0 := le_antisymm (by simpa using hb) (drop_nonneg h0' _)
        obtain ⟨out, e, h1, h2, h3, h4⟩ := keep_all hT.eps hDne hdesc h0' hc hM hz0 respect
        exact ⟨out, e, h1, h2, h3, h4.trans (le_max_right _ _)⟩
  obtain ⟨out, e, h1, h2, h3, h4⟩ := key
  refine ⟨out.P.length, U, ?_, h2, by omega, h3, fun k hk k' hk' => hcols k (by omega) k' (by omega), ?_⟩
  · rw [diagPosSemiDef, if_neg (by have := Nat.mul_pos hd hr; omega)]
    dsimp only
    rw [← hMd, e, Res.bind_ok, if_neg (by omega)]
  · rw [htot]
    have e2 : ∑ p, ∑ k ∈ range out.P.length, ‖∑ s ∈ range d, ∑ b ∈ range r, U s b k * f p s b‖ ^ 2 = (D.take out.P.length).sum := by
      rw [sum_comm, ← sum_getD]
      refine sum_congr rfl fun k hk => ?_
      have hk' : k < d * r := by have := mem_range.1 hk; omega
      rw [← hcol ⟨k, hk'⟩]
      exact sum_congr rfl fun p _ => by rw [inner_col]
    rw [e2]
    have := take_drop_sum D out.P.length
    linarith

end Verif.ApplyMPO
