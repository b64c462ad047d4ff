import Verif.MPS.NMultC97
import Verif.MPS.SvdBondEx
import Verif.MPS.FitOneEx

/-! # C97: examples, and a product that is lost -/

noncomputable section

namespace Verif.NMult

open Finset Verif.Limits Verif.SvdBond Matrix
open Verif.DmrgNum hiding Tools

variable {𝕜 : Type*} [RCLike 𝕜]

/-! ## Two operators -/

/-- `|0><0| |0><0| |0><0| + η |1><1| |1><1| |1><1|`, with its centre at site 1. -/
def exA (η : ℝ) : MPS (Site ℝ) :=
  ⟨3, fun i => if i = 1 then ⟨1, 4, 2, fun _ s c => if c = 0 ∧ s = 0 then 1 else if c = 1 ∧ s = 3 then η else 0⟩
    else if i = 2 then ⟨2, 4, 2, fun a s c => if a = c ∧ s = 3 * a then 1 else 0⟩ else ⟨2, 4, 1, fun a s _ => if s = 3 * a then 1 else 0⟩, 0, 2⟩

/-- `1 |1><1| |1><1|`, with its centre at site 1. -/
def exB : MPS (Site ℝ) :=
  ⟨3, fun i => ⟨1, 4, 1, fun _ s _ => if i = 1 then (if s = 0 ∨ s = 3 then 1 else 0) else if s = 3 then 1 else 0⟩, 0, 2⟩

/-- The options that are not given. -/
def exO (trunc : Option Bool) : Opts := ⟨none, none, 1, trunc, false, true, true, false, false, 0⟩

theorem exO_ok (t : Option Bool) : (withDefaults (exO t)).Ok :=
  ⟨fun m h => by simp [withDefaults, exO] at h, le_refl _, fun c h => by
    simp only [withDefaults, exO, Option.getD_none, Option.some.injEq] at h
    rw [← h]
    norm_num, fun h => by simp [withDefaults, exO] at h⟩

theorem exO_svd (t : Option Bool) : useSvd (withDefaults (exO t)) := .inr ⟨rfl, by
  simp only [withDefaults, exO, Option.getD_none, Option.getD_some]
  norm_num⟩

theorem exO_std (t : Option Bool) : (withDefaults (exO t)).Std := ⟨rfl, rfl, rfl⟩

theorem cases3 {i : Int} (h1 : 1 ≤ i) (h2 : i ≤ 3) : i = 1 ∨ i = 2 ∨ i = 3 := by omega

theorem ex_given {G : Ops (Site ℝ)} (hG : GaugeOK G) (η : ℝ) : Given G (fun _ => 2) (fun _ => 2) (fun _ => 2) (exA η) exB := by
  refine ⟨rfl, (by decide : 2 ≤ 3), ⟨le_refl _, (by decide : (0 : Int) + 2 ≤ 2), (by decide : (2 : Int) ≤ 3 + 1), fun i h1 h2 => ?_, fun i h1 h2 => ?_, fun i h1 h2 => ?_⟩,
    ⟨le_refl _, by decide, by decide, fun i h1 h2 => ?_, fun i h1 h2 => ?_, fun i h1 h2 => ?_⟩,
    ⟨rfl, rfl, fun i h1 h2 => ?_, fun i h1 h2 => ?_⟩, ⟨rfl, rfl, fun i h1 h2 => rfl, fun i h1 h2 => rfl⟩, fun _ _ _ => by norm_num, fun _ _ _ => by norm_num⟩
  · exact absurd (le_trans h1 h2) (by decide : ¬ (1 : Int) ≤ 0)
  · change (2 : Int) ≤ i at h1
    rcases cases3 (by omega) h2 with rfl | rfl | rfl
    · omega
    · intro a' ha' a ha
      simp only [exA] at ha ha' ⊢
      norm_num at ha ha' ⊢
      interval_cases a <;> interval_cases a' <;> simp [Finset.sum_range_succ]
    · intro a' ha' a ha
      simp only [exA] at ha ha' ⊢
      norm_num at ha ha' ⊢
      interval_cases a <;> interval_cases a' <;> simp [Finset.sum_range_succ]
  · rw [hG.link]
    rcases cases3 h1 (by change i < 3 at h2; omega) with rfl | rfl | rfl
    · simp [exA]
    · simp [exA]
    · exact absurd h2 (by decide : ¬ (3 : Int) < 3)
  · exact absurd (le_trans h1 h2) (by decide)
  · change (2 : Int) ≤ i at h1
    intro a' ha' a ha
    simp only [exB] at ha ha' ⊢
    obtain rfl : a = 0 := by omega
    obtain rfl : a' = 0 := by omega
    simp only [if_neg (show ¬ i = 1 by omega)]
    simp [Finset.sum_range_succ]
  · rw [hG.link]
    simp [exB]
  · rcases cases3 h1 h2 with rfl | rfl | rfl <;> simp [exA]
  · rcases cases3 h1 (by change i < 3 at h2; omega) with rfl | rfl | rfl
    · simp [exA]
    · simp [exA]
    · exact absurd h2 (by decide : ¬ (3 : Int) < 3)

/-- The theorem applies to them, without truncation: the product `η |1><1| |1><1| |1><1|` is returned up to what `orthogonalize` discards. -/
example : ∃ (G : Ops (Site ℝ)) (T : Tools ℝ) (T' : ApplyMPO.Tools ℝ) (R : MPS (Site ℝ)), nmult G T T' (exO (some false)) (fun _ => 4) (fun _ => 2) (fun _ => 2) (exA 1) exB = .ok R ∧
    SumNum.len (fun _ => 4) 3 (fun κ => wave R.t 3 κ - prodOp (fun _ => 2) (fun _ => 2) (exA 1).t exB.t 3 κ) ≤
      SumNum.rel 3 (1 / 10 ^ 13) * SumNum.len (fun _ => 4) 3 (prodOp (fun _ => 2) (fun _ => 2) (exA 1).t exB.t 3) := by
  obtain ⟨G, hG, -⟩ := FitOne.exists_small (𝕜 := ℝ)
  obtain ⟨T, hT⟩ := C96_tools (𝕜 := ℝ)
  obtain ⟨T', hT'⟩ := ApplyMPO.exists_tools (𝕜 := ℝ)
  obtain ⟨R, h1, -, -, h2, -⟩ := C97_product_partial hG hT hT' (exO_ok (some false)) rfl (exO_svd _) (ex_given hG 1) (.inl rfl)
  exact ⟨G, T, T', R, h1, h2 (.inl rfl) (.inl rfl)⟩

/-- A product of diagonal operators, with its centre at site 1. -/
def exC : MPS (Site ℝ) :=
  ⟨3, fun i => ⟨1, 4, 1, fun _ s _ => if s = 0 then (if i = 1 then 1 else 3 / 5) else if s = 3 then (if i = 1 then 1 else 4 / 5) else 0⟩, 0, 2⟩

theorem ex_given' {G : Ops (Site ℝ)} (hG : GaugeOK G) : Given G (fun _ => 2) (fun _ => 2) (fun _ => 2) (exA 1) exC := by
  obtain ⟨g1, g2, g3, -, g5, -, g7, g8⟩ := ex_given hG 1
  refine ⟨rfl, g2, g3, ⟨le_refl _, by decide, by decide, fun i h1 h2 => ?_, fun i h1 h2 => ?_, fun i h1 h2 => ?_⟩, g5, ⟨rfl, rfl, fun i h1 h2 => rfl, fun i h1 h2 => rfl⟩, g7, g8⟩
  · exact absurd (le_trans h1 h2) (by decide)
  · change (2 : Int) ≤ i at h1
    intro a' ha' a ha
    simp only [exC] at ha ha' ⊢
    obtain rfl : a = 0 := by omega
    obtain rfl : a' = 0 := by omega
    simp only [if_neg (show ¬ i = 1 by omega)]
    simp [Finset.sum_range_succ]
    norm_num
  · rw [hG.link]
    simp [exC]

theorem ex_cond : Cond (fun _ => 4) (fun _ => 2) (fun _ => 2) (exA 1).t exC.t 3 ((4 / 3) ^ 4) := by
  intro k h1 h2
  obtain rfl : k = 1 := by omega
  refine ⟨(3 / 5) ^ 4, by norm_num, fun x => ?_⟩
  have e : envSq (fun _ => 4) (fun _ => 2) (fun _ => 2) (exA 1).t exC.t 3 1 x = (3 / 5) ^ 4 * x 0 0 ^ 2 + (4 / 5) ^ 4 * x 1 0 ^ 2 := by
    simp [envSq, sumTail, renv, pe, exA, exC, Finset.sum_range_succ, Function.update]
    ring
  rw [e]
  have e2 : ∑ c ∈ range ((exA 1).t ((1 : ℕ) : Int)).r, ∑ e ∈ range (exC.t ((1 : ℕ) : Int)).r, ‖x c e‖ ^ 2 = x 0 0 ^ 2 + x 1 0 ^ 2 := by
    simp [exA, exC, Finset.sum_range_succ]
  intro n
  have e2 : n = x 0 0 ^ 2 + x 1 0 ^ 2 := e2
  rw [e2]
  have := sq_nonneg (x 0 0)
  have := sq_nonneg (x 1 0)
  constructor <;> nlinarith

/-- With default options the product of these is returned up to the cutoffs. -/
example : ∃ (G : Ops (Site ℝ)) (T : Tools ℝ) (T' : ApplyMPO.Tools ℝ) (R : MPS (Site ℝ)), nmult G T T' (exO none) (fun _ => 4) (fun _ => 2) (fun _ => 2) (exA 1) exC = .ok R ∧
    SumNum.len (fun _ => 4) 3 (fun κ => wave R.t 3 κ - prodOp (fun _ => 2) (fun _ => 2) (exA 1).t exC.t 3 κ) ≤
      (Real.sqrt ((((3 - 2 : ℕ) : ℝ) * (4 / 3) ^ 4 + 1) * (1 / 10 ^ 14)) + SumNum.rel 3 (1 / 10 ^ 13)) * SumNum.len (fun _ => 4) 3 (prodOp (fun _ => 2) (fun _ => 2) (exA 1).t exC.t 3) := by
  obtain ⟨G, hG, -⟩ := FitOne.exists_small (𝕜 := ℝ)
  obtain ⟨T, hT⟩ := C96_tools (𝕜 := ℝ)
  obtain ⟨T', hT'⟩ := ApplyMPO.exists_tools (𝕜 := ℝ)
  obtain ⟨R, h1, -, -, -, h2⟩ := C97_product_partial hG hT hT' (exO_ok none) rfl (exO_svd _) (ex_given' hG) (.inr ⟨exO_std _, .inr ⟨rfl, (by norm_num : 2 * 2 ≤ 5000)⟩⟩)
  exact ⟨G, T, T', R, h1, h2 ⟨exO_std _, rfl⟩ (by norm_num : 2 * 2 ≤ 5000) _ (by norm_num) ⟨exA 1, exC, rfl, rfl, ex_cond⟩⟩

/-! ## A product that is lost -/

/-- A large value and others which sum up to less than the cutoff: only the large one is kept. -/
theorem trunc_first {eps : ℝ} (he : 0 < eps) {M : Int} (hM : 1 ≤ M) {a : ℝ} {l : List ℝ} (hd : Decomp.Desc (1 :: a :: l)) (h0 : ∀ x ∈ (1 :: a :: l : List ℝ), 0 ≤ x)
    (hs : (a :: l).sum ≤ 1 / 10 ^ 15) (respect : Bool) : ∃ out, Decomp.truncate eps ⟨M, 1, 1 / 10 ^ 14, false, true, respect⟩ (1 :: a :: l) = .ok out ∧ out.P.length = 1 := by
  obtain ⟨W, k, v, below, above, hW, hc, hv, hg, ht⟩ := Decomp.truncate_long (eps := eps) (p := (1 : ℝ)) (p' := a) (l := l) ⟨M, 1, 1 / 10 ^ 14, false, true, respect⟩ hd one_pos he hM (le_refl _)
  have hw : W = 1 :: a :: l := by
    rw [hW]
    unfold Decomp.weights
    refine (List.map_congr_left fun x hx => max_eq_left (h0 x hx)).trans (List.map_id _)
  have ha : 0 ≤ a := h0 a (by simp)
  have hl : 0 ≤ l.sum := List.sum_nonneg fun x hx => h0 x (by simp [hx])
  rw [List.sum_cons] at hs
  have hk : k = 1 := by
    by_contra hk
    have hpos := hc.pos
    have h1 : (1 : Int) < k := by omega
    have h2 := hc.sumStop rfl h1
    simp only [if_true] at h2
    have h3 : (W.drop (k - 1)).sum ≤ (W.drop 1).sum := by
      obtain ⟨j, rfl⟩ : ∃ j, k = j + 2 := ⟨k - 2, by omega⟩
      have e : W.drop (j + 2 - 1) = (W.drop 1).drop j := by rw [List.drop_drop]; congr 1; omega
      have e2 := List.sum_take_add_sum_drop (W.drop 1) j
      have e3 : 0 ≤ ((W.drop 1).take j).sum := List.sum_nonneg fun x hx => h0 x (hw ▸ List.mem_of_mem_drop (List.mem_of_mem_take hx))
      rw [e]
      linarith
    rw [hw] at h2 h3
    simp only [List.drop_succ_cons, List.drop_zero, List.sum_cons] at h2 h3
    rw [hw] at hc
    norm_num at h2 h3 hs
    linarith
  subst hk
  have hv1 : v = 1 := by
    rw [hw] at hv
    simpa using hv.symm
  subst hv1
  have hb : below = 1 := by
    have h1 := hg.below_pos
    have h2 := hg.below_le
    omega
  have hab : above = 0 := by
    by_contra h
    obtain ⟨h1, h2⟩ := hg.above_mem 1 le_rfl (by omega)
    subst hw
    simp only [List.getElem_cons_succ, List.getElem_cons_zero, Decomp.tolOf, one_ne_zero, if_false, abs_lt] at h2
    norm_num at h2 hs
    linarith
  subst hb hab
  refine ⟨_, ht, ?_⟩
  rw [hw]
  simp

/-- The eigenvectors of a diagonal matrix with one large element. -/
theorem top_vec {T : Tools 𝕜} (hT : T.Right) {a b : ℕ} (h : Fin a × Fin b → ℝ) (i0 : Fin a × Fin b) (h1 : h i0 = 1) (h2 : ∀ i, i ≠ i0 → h i < 1) (hab : 0 < a * b) :
    let q := T.eig a b (Matrix.diagonal fun i => (h i : 𝕜))
    q.1 ⟨0, hab⟩ = 1 ∧ (∀ i, i ≠ i0 → q.2 i ⟨0, hab⟩ = 0) ∧ ∑ j, q.1 j = ∑ i, h i := by
  have hH : (Matrix.diagonal fun i => (h i : 𝕜)).IsHermitian := by
    unfold Matrix.IsHermitian
    rw [Matrix.diagonal_conjTranspose]
    congr 1
    funext i
    simp
  have hU := hT.orth a b _ hH
  have hE := hT.eig a b _ hH
  have hA := hT.anti a b _ hH
  intro q
  change q.2ᴴ * q.2 = 1 at hU
  change _ = q.2 * Matrix.diagonal (fun j => (q.1 j : 𝕜)) * q.2ᴴ at hE
  change Antitone q.1 at hA
  have hU' : q.2 * q.2ᴴ = 1 := by
    have := Matrix.mul_eq_one_comm_of_equiv (A := q.2ᴴ) (B := q.2) finProdFinEquiv.symm
    exact this.1 hU
  have hp : ∀ i j, (h i : 𝕜) * q.2 i j = q.2 i j * (q.1 j : 𝕜) := by
    intro i j
    have e : (Matrix.diagonal fun i => (h i : 𝕜)) * q.2 = q.2 * Matrix.diagonal (fun j => (q.1 j : 𝕜)) := by
      rw [hE]
      rw [Matrix.mul_assoc, hU, Matrix.mul_one]
    have := congrFun (congrFun e i) j
    rwa [Matrix.diagonal_mul, Matrix.mul_diagonal] at this
  have hval : ∀ i j, q.2 i j ≠ 0 → q.1 j = h i := by
    intro i j hij
    have := hp i j
    rw [mul_comm] at this
    exact_mod_cast (mul_left_cancel₀ hij this).symm
  have hle : ∀ i, h i ≤ 1 := fun i => by
    by_cases e : i = i0
    · rw [e, h1]
    · exact (h2 i e).le
  obtain ⟨j, hj⟩ : ∃ j, q.2 i0 j ≠ 0 := by
    by_contra hn
    push Not at hn
    have := congrFun (congrFun hU' i0) i0
    rw [Matrix.mul_apply, sum_eq_zero fun j _ => by rw [hn j, zero_mul], Matrix.one_apply_eq] at this
    exact zero_ne_one this
  obtain ⟨i, hi⟩ : ∃ i, q.2 i ⟨0, hab⟩ ≠ 0 := by
    by_contra hn
    push Not at hn
    have := congrFun (congrFun hU ⟨0, hab⟩) ⟨0, hab⟩
    rw [Matrix.mul_apply, sum_eq_zero fun j _ => by rw [hn j, mul_zero], Matrix.one_apply_eq] at this
    exact zero_ne_one this
  have h3 : q.1 ⟨0, hab⟩ = 1 := by
    refine le_antisymm ?_ ?_
    · rw [hval i _ hi]; exact hle i
    · rw [← h1, ← hval i0 j hj]
      exact hA (Fin.le_def.2 (Nat.zero_le _))
  refine ⟨h3, fun k hk => ?_, ?_⟩
  · by_contra hn
    have := hval k _ hn
    rw [h3] at this
    exact absurd (h2 k hk) (by rw [← this]; exact lt_irrefl _)
  · have := congrArg Matrix.trace hE
    rw [Matrix.trace_diagonal, Matrix.trace_mul_comm, ← Matrix.mul_assoc, hU, Matrix.one_mul, Matrix.trace_diagonal] at this
    exact_mod_cast this.symm

theorem step_out {T : Tools 𝕜} {o : Opts} {d dm dt : Int → ℕ} {A B : Int → Site 𝕜} {i : Int} {s s' : St 𝕜} (h : step T o d dm dt A B i s = .ok s') :
    ∃ k Q V, denmat (P := Empty) T o (Matrix.of fun (p : Fin s.m × Fin (d i)) (q : Fin (A i).r × Fin (B i).r) => clust (dm i) (dt i) (A i) (B i) s.nf p.1 p.2 q.1 q.2) none = .ok ⟨k, Q, V⟩ ∧
      s'.m = k ∧ s'.nf = fun k' c e => if h : k' < k ∧ c < (A i).r ∧ e < (B i).r then V ⟨k', h.1⟩ (⟨c, h.2.1⟩, ⟨e, h.2.2⟩) else 0 := by
  unfold step at h
  dsimp only at h
  cases hd : denmat (P := Empty) T o (Matrix.of fun (p : Fin s.m × Fin (d i)) (q : Fin (A i).r × Fin (B i).r) => clust (dm i) (dt i) (A i) (B i) s.nf p.1 p.2 q.1 q.2) none with
  | throw => rw [hd] at h; cases h
  | ub => rw [hd] at h; cases h
  | ok q =>
    rw [hd] at h
    simp only [Res.bind] at h
    generalize set _ i _ = r1 at h
    cases r1 with
    | throw => cases h
    | ub => cases h
    | ok r1 =>
      simp only [] at h
      generalize ref r1 (i + 1) = r2 at h
      cases r2 with
      | throw => cases h
      | ub => cases h
      | ok r2 =>
        injection h with h
        subst h
        exact ⟨q.1, q.2.1, q.2.2, rfl, rfl, rfl⟩

/-- The first product. -/
def exM (η : ℝ) : Matrix (Fin 1 × Fin 4) (Fin 2 × Fin 1) ℝ := Matrix.of fun p q => if p.2 = 0 ∧ q.1 = 0 then 1 else if p.2 = 3 ∧ q.1 = 1 then η else 0

theorem exM_eq (η : ℝ) : (Matrix.of fun (p : Fin 1 × Fin 4) (q : Fin 2 × Fin 1) => clust 2 2 ((exA η).t 1) (exB.t 1) (fun _ _ _ => 1) p.1 p.2 q.1 q.2) = exM η := by
  ext ⟨p, s⟩ ⟨c, e⟩
  simp only [Matrix.of_apply, clust_eq, pe, exM]
  have l1 : ((exA η).t 1).l = 1 := by simp [exA]
  have l2 : (exB.t 1).l = 1 := rfl
  rw [l1, l2]
  simp only [range_one, sum_singleton, one_mul]
  fin_cases s <;> fin_cases c <;> simp [exA, exB, Finset.sum_range_succ]

theorem exM_rho (η : ℝ) : exM η * (exM η)ᴴ = Matrix.diagonal fun i : Fin 1 × Fin 4 => ((if i.2 = 0 then 1 else if i.2 = 3 then η ^ 2 else 0 : ℝ) : ℝ) := by
  ext ⟨p, s⟩ ⟨p', s'⟩
  obtain rfl : p = p' := Subsingleton.elim _ _
  rw [Matrix.mul_apply, Matrix.diagonal_apply, Fintype.sum_prod_type]
  simp only [Fin.sum_univ_two, Fin.sum_univ_one, Matrix.conjTranspose_apply, exM, Matrix.of_apply]
  fin_cases s <;> fin_cases s' <;> simp [sq]

/-- Of the first product only the large part is kept. -/
theorem first_lost {T : Tools ℝ} (hT : T.Right) {η : ℝ} (h0 : 0 < η) (h1 : η ^ 2 ≤ 1 / 10 ^ 15) {k : ℕ} {Q : Matrix (Fin 1 × Fin 4) (Fin k) ℝ} {V : Matrix (Fin k) (Fin 2 × Fin 1) ℝ}
    (h : denmat (P := Empty) T (withDefaults (exO none)) (exM η) none = .ok ⟨k, Q, V⟩) : k = 1 ∧ ∀ j, V j (1, 0) = 0 := by
  have hlt : η ^ 2 < 1 := lt_of_le_of_lt h1 (by norm_num)
  obtain ⟨t1, t2, t3⟩ := top_vec hT (fun i : Fin 1 × Fin 4 => (if i.2 = 0 then 1 else if i.2 = 3 then η ^ 2 else 0 : ℝ)) (0, 0) (by simp) (fun i hi => by
    have : i.2 ≠ 0 := fun e => hi (Prod.ext (Subsingleton.elim _ _) e)
    rw [if_neg this]
    split_ifs
    · exact hlt
    · norm_num) (by norm_num)
  have hH : (Matrix.diagonal fun i : Fin 1 × Fin 4 => (((if i.2 = 0 then 1 else if i.2 = 3 then η ^ 2 else 0 : ℝ)) : ℝ)).IsHermitian := by
    rw [← exM_rho]
    exact Matrix.isHermitian_mul_conjTranspose_self _
  have hanti := hT.anti 1 4 _ hH
  have hnn : ∀ j, 0 ≤ (T.eig 1 4 (Matrix.diagonal fun i : Fin 1 × Fin 4 => (((if i.2 = 0 then 1 else if i.2 = 3 then η ^ 2 else 0 : ℝ)) : ℝ))).1 j := by
    intro j
    have hU := hT.orth 1 4 _ hH
    have hE := hT.eig 1 4 _ hH
    generalize T.eig 1 4 _ = q at hU hE
    have e : q.2ᴴ * (exM η * (exM η)ᴴ) * q.2 = Matrix.diagonal (fun j => (q.1 j : ℝ)) := by
      rw [exM_rho, hE]
      simp only [Matrix.mul_assoc]
      rw [hU, Matrix.mul_one, ← Matrix.mul_assoc, hU, Matrix.one_mul]
      rfl
    have e2 := congrFun (congrFun e j) j
    rw [Matrix.diagonal_apply_eq] at e2
    have e3 : q.2ᴴ * (exM η * (exM η)ᴴ) * q.2 = (q.2ᴴ * exM η) * (q.2ᴴ * exM η)ᴴ := by
      rw [Matrix.conjTranspose_mul, Matrix.conjTranspose_conjTranspose]
      simp only [Matrix.mul_assoc]
    rw [e3, Matrix.mul_apply] at e2
    have : 0 ≤ ∑ x, (q.2ᴴ * exM η) j x * (q.2ᴴ * exM η)ᴴ x j := sum_nonneg fun x _ => by
      rw [Matrix.conjTranspose_apply, star_trivial]
      exact mul_self_nonneg _
    rw [e2] at this
    simpa using this
  unfold denmat at h
  rw [if_neg (by norm_num)] at h
  dsimp only at h
  have hrho : rho (P := Empty) (withDefaults (exO none)).noise (exM η) none = Matrix.diagonal fun i : Fin 1 × Fin 4 => (((if i.2 = 0 then 1 else if i.2 = 3 then η ^ 2 else 0 : ℝ)) : ℝ) := exM_rho η
  rw [hrho] at h
  change (T.eig 1 4 (Matrix.diagonal fun i : Fin 1 × Fin 4 => (((if i.2 = 0 then 1 else if i.2 = 3 then η ^ 2 else 0 : ℝ)) : ℝ))).1 _ = 1 at t1
  change ∀ i, i ≠ (0, 0) → (T.eig 1 4 (Matrix.diagonal fun i : Fin 1 × Fin 4 => (((if i.2 = 0 then 1 else if i.2 = 3 then η ^ 2 else 0 : ℝ)) : ℝ))).2 i _ = 0 at t2
  change ∑ j, (T.eig 1 4 (Matrix.diagonal fun i : Fin 1 × Fin 4 => (((if i.2 = 0 then 1 else if i.2 = 3 then η ^ 2 else 0 : ℝ)) : ℝ))).1 j = _ at t3
  generalize T.eig 1 4 (Matrix.diagonal fun i : Fin 1 × Fin 4 => (((if i.2 = 0 then 1 else if i.2 = 3 then η ^ 2 else 0 : ℝ)) : ℝ)) = q at *
  have hlist : List.ofFn q.1 = 1 :: q.1 (1 : Fin 4) :: [q.1 (2 : Fin 4), q.1 (3 : Fin 4)] := by
    have e : List.ofFn q.1 = [q.1 (0 : Fin 4), q.1 (1 : Fin 4), q.1 (2 : Fin 4), q.1 (3 : Fin 4)] := by
      simp [List.ofFn_succ]
    rw [e]
    congr 1
  have hsum : q.1 (0 : Fin 4) + q.1 (1 : Fin 4) + q.1 (2 : Fin 4) + q.1 (3 : Fin 4) = 1 + η ^ 2 := by
    have e1 : ∑ j : Fin (1 * 4), q.1 j = q.1 (0 : Fin 4) + q.1 (1 : Fin 4) + q.1 (2 : Fin 4) + q.1 (3 : Fin 4) := Fin.sum_univ_four (M := ℝ) q.1
    rw [← e1, t3, Fintype.sum_prod_type, Fin.sum_univ_one, Fin.sum_univ_four]
    simp
  have t1' : q.1 (0 : Fin 4) = 1 := t1
  obtain ⟨out, g1, g2⟩ := trunc_first (a := q.1 (1 : Fin 4)) (l := [q.1 (2 : Fin 4), q.1 (3 : Fin 4)]) hT.eps (M := 4) (by norm_num)
    (by rw [← hlist]; exact desc_ofFn hanti) (by
      rw [← hlist]
      intro x hx
      obtain ⟨j, rfl⟩ := (List.mem_ofFn' _ _).1 hx
      exact hnn j) (by
      simp only [List.sum_cons, List.sum_nil]
      linarith) true
  have hkeep : keepD T.eps (withDefaults (exO none)) (1 * 4) (List.ofFn q.1) = .ok 1 := by
    rw [hlist]
    unfold keepD
    rw [if_pos (show (withDefaults (exO none)).doTrunc = true from rfl)]
    have e0 : (withDefaults (exO none)).maxdim.getD ((1 * 4 : ℕ) : Int) = 4 := by simp [withDefaults, exO]
    rw [e0]
    simp only [withDefaults, exO, Option.getD_none, Option.getD_some]
    rw [g1]
    simp only [Res.bind]
    rw [g2]
    rfl
  rw [hkeep] at h
  simp only [Res.map] at h
  injection h with h
  injection h with hk hV
  subst hk
  refine ⟨rfl, fun j => ?_⟩
  have hV := eq_of_heq hV
  injection hV with _ hV
  rw [← hV, Matrix.mul_apply]
  refine sum_eq_zero fun i _ => ?_
  by_cases hi : i = (0, 0)
  · rw [hi]
    simp [exM]
  · rw [Matrix.transpose_apply, Matrix.map_apply, cutCols, Matrix.of_apply]
    obtain rfl : j = 0 := Subsingleton.elim _ _
    have e : (if h : ((0 : Fin 1) : ℕ) < 1 * 4 then q.2 i ⟨((0 : Fin 1) : ℕ), h⟩ else 0) = 0 := by
      split_ifs with h
      · exact t2 i hi
      · rfl
    rw [e, star_zero, zero_mul]

/-- Nothing of the rest of `exA` and `exB` is reached by the large part. -/
theorem rest_zero (η : ℝ) (κ : Int → ℕ) (b c e : ℕ) : pe 2 2 ((exA η).t 2) (exB.t 2) 0 b (κ 2) c e = 0 := by
  refine sum_eq_zero fun x hx => ?_
  have hx := mem_range.1 hx
  have h2 : κ 2 % 2 < 2 := Nat.mod_lt _ (by norm_num)
  simp only [exA, exB]
  norm_num
  intro h _ _ hx0
  omega

/-- The product of `exA` and `exB` is `η |1><1| |1><1| |1><1|`. -/
theorem ex_prod (η : ℝ) : prodOp (fun _ => 2) (fun _ => 2) (exA η).t exB.t 3 (fun _ => 3) = η := by
  obtain ⟨G, hG, -⟩ := FitOne.exists_small (𝕜 := ℝ)
  have h := ex_given hG η
  have hA : Chain 3 (fun _ => 2 * 2) (exA η).t := h.chainA
  have hB : Chain 3 (fun _ => 2 * 2) exB.t := h.chainB
  rw [← prod_first (by norm_num) hA hB]
  simp [renv, pe, exA, exB, Finset.sum_range_succ]

open Verif.SumNum (len) in
/-- **The cutoff is not compared with the norm of the product.** With default options (cutoff `1E-14`) and `η = 1E-8`, all of the product `η |1><1| |1><1| |1><1|` of `exA` and `exB` is lost,
with any right eigensolver and any gauge: the operator that is returned is zero. At the first site the product of the tensors is `|0><0|` to one vector of the link and `η |1><1|` to another,
and the second is discarded although the rest of the chain gives zero for the first. -/
theorem C97_lost_counterexample {G : Ops (Site ℝ)} (hG : GaugeOK G) {T : Tools ℝ} (hT : T.Right) {T' : ApplyMPO.Tools ℝ} (hT' : ApplyMPO.EigOK T') {η : ℝ} (h0 : 0 < η) (h1 : η ^ 2 ≤ 1 / 10 ^ 15) :
    ∃ R, nmult G T T' (exO none) (fun _ => 4) (fun _ => 2) (fun _ => 2) (exA η) exB = .ok R ∧ (∀ κ : Int → ℕ, (∀ i : Int, 1 ≤ i → i ≤ (3 : ℕ) → κ i < 4) → wave R.t 3 κ = 0) ∧
      prodOp (fun _ => 2) (fun _ => 2) (exA η).t exB.t 3 (fun _ => 3) = η := by
  have hf : Fine (withDefaults (exO none)) 4 := .inr ⟨exO_std _, .inr ⟨rfl, by norm_num⟩⟩
  obtain ⟨A', B', n, s, a1, b1, hN, b3, hp, -, r1, r2⟩ := start hG hT (exO_ok none) hf.keeps (ex_given hG η)
  obtain rfl : n = 1 := by
    have : (exA η).N = 3 := rfl
    omega
  have ea : position G (exA η) 1 = .ok (exA η) := rfl
  have eb : position G exB 1 = .ok exB := rfl
  rw [ea] at a1
  rw [eb] at b1
  injection a1 with a1
  injection b1 with b1
  subst a1 b1
  obtain ⟨p, l1, psi, l2, l3, l4, l5, l6, -⟩ := core hT (exO_ok none) rfl (exO_svd none) (d := fun _ => 4) (n := 1) hf hp r2
  obtain ⟨R, o1, o2, o3, o4⟩ := Orthog.C76_cutoff_partial hT' (o := SumNum.defaults) (by norm_num [SumNum.defaults]) rfl l3
  have hnf : s.m = 1 ∧ ∀ p, s.nf p 1 0 = 0 := by
    unfold rounds at r1
    have e0 : rounds T (withDefaults (exO none)) (fun _ => 4) (fun _ => 2) (fun _ => 2) (exA η) exB.t 0 = .ok ⟨1, fun _ _ _ => 1, ⟨3, fun i => if 1 ≤ i ∧ i ≤ 3 then (exA η).t i else ⟨0, 0, 0, fun _ _ _ => 0⟩, 0, 2⟩⟩ := rfl
    have r1' : (rounds T (withDefaults (exO none)) (fun _ => 4) (fun _ => 2) (fun _ => 2) (exA η) exB.t 0).bind (step T (withDefaults (exO none)) (fun _ => 4) (fun _ => 2) (fun _ => 2) (exA η).t exB.t 1) = .ok s := r1
    rw [e0] at r1'
    obtain ⟨k, Q, V, g1, g2, g3⟩ := step_out (show step T (withDefaults (exO none)) (fun _ => 4) (fun _ => 2) (fun _ => 2) (exA η).t exB.t 1 _ = .ok s from r1')
    have g1' : denmat (P := Empty) T (withDefaults (exO none)) (exM η) none = .ok ⟨k, Q, V⟩ := by
      rw [← exM_eq]
      exact g1
    obtain ⟨f1, f2⟩ := first_lost hT h0 h1 g1'
    refine ⟨g2.trans f1, fun p => ?_⟩
    rw [g3]
    by_cases hh : p < k ∧ 1 < ((exA η).t 1).r ∧ 0 < (exB.t 1).r
    · exact (dif_pos hh).trans (f2 _)
    · exact dif_neg hh
  have hnow : ∀ κ, now (fun _ => 2) (fun _ => 2) (exA η).t exB.t 3 1 s κ = 0 := by
    intro κ
    unfold now emb
    refine sum_eq_zero fun q _ => ?_
    refine mul_eq_zero_of_right _ ?_
    unfold rest
    refine sum_eq_zero fun a ha => sum_eq_zero fun b hb => ?_
    have ha : a < 2 := mem_range.1 ha
    have hb : b < 1 := mem_range.1 hb
    obtain rfl : b = 0 := by omega
    interval_cases a
    · refine mul_eq_zero_of_right _ (sum_eq_zero fun c _ => sum_eq_zero fun e _ => mul_eq_zero_of_left ?_ _)
      exact rest_zero η κ 0 c e
    · rw [hnf.2, zero_mul]
  have hz : normSq (fun _ => 4) 3 (wave psi.t 3) = 0 := by
    have := normSq_proj l6
    have e1 : normSq (fun _ => 4) 3 (now (fun _ => 2) (fun _ => 2) (exA η).t exB.t 3 1 s) = 0 := by
      have : now (fun _ => 2) (fun _ => 2) (exA η).t exB.t 3 1 s = fun _ => 0 := funext hnow
      rw [this]
      simp [normSq, sumCfg]
    have g1 := normSq_nonneg (fun _ => 4) 3 (wave psi.t 3)
    have g2 := normSq_nonneg (fun _ => 4) 3 (fun κ => now (fun _ => 2) (fun _ => 2) (exA η).t exB.t 3 1 s κ - wave psi.t 3 κ)
    have g3 : normSq (fun _ => 4) 3 (now (fun _ => 2) (fun _ => 2) (exA η).t exB.t 3 1 s) = normSq (fun _ => 4) 3 (wave psi.t 3) + normSq (fun _ => 4) 3 (fun κ => now (fun _ => 2) (fun _ => 2) (exA η).t exB.t 3 1 s κ - wave psi.t 3 κ) := this
    linarith
  have e : ∀ φ : (Int → Nat) → ℝ, normSq (fun i => (psi.t i).d) psi.N φ = normSq (fun _ => 4) 3 φ := fun φ => by
    rw [l4]
    exact SumNum.normSq_dd l5.site φ
  refine ⟨R, ?_, ?_, ex_prod η⟩
  · unfold nmult
    rw [if_neg (not_not.2 (show (exA η).N = exB.N from rfl)), ea]
    simp only [Res.bind]
    rw [eb]
    simp only
    rw [if_neg (show ¬ exB.N < 2 by decide)]
    have r1' : rounds T (withDefaults (exO none)) (fun _ => 4) (fun _ => 2) (fun _ => 2) (exA η) exB.t (exB.N - 2) = .ok s := r1
    rw [r1']
    simp only
    have l1' : last T (withDefaults (exO none)) s.m 4 4 (block (fun _ => 4) (fun _ => 2) (fun _ => 2) (exA η).t exB.t (exB.N - 2) s) = .ok p := l1
    rw [l1']
    simp only
    have l2' : svdBond s.res (((exB.N - 2 : ℕ) : Int) + 1) p .right = .ok psi := l2
    rw [l2']
    exact o1
  · rw [Orthog.dist, Orthog.norm2, Orthog.norm2, e, e, e, l4] at o3
    have hR : len (fun _ => 4) 3 (wave R.t 3) = 0 := by
      have g2 := normSq_nonneg (fun _ => 4) 3 (wave R.t 3)
      have g3 := normSq_nonneg (fun _ => 4) 3 (fun σ => wave psi.t 3 σ - wave R.t 3 σ)
      have : normSq (fun _ => 4) 3 (fun σ => wave psi.t 3 σ - wave R.t 3 σ) = normSq (fun _ => 4) 3 (wave psi.t 3) - normSq (fun _ => 4) 3 (wave R.t 3) := o3
      rw [SumNum.len, Real.sqrt_eq_zero g2]
      linarith
    intro κ hκ
    exact SumNum.len_zero hR hκ fun σ σ' h => congrFun (TEvol.amp_congr (n := 3) fun i i1 i2 => ⟨rfl, h i i1 i2⟩) 0

end Verif.NMult
