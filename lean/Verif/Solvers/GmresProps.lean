import Verif.Solvers.Gmres
import Mathlib.Analysis.InnerProductSpace.PiL2

/-!
# Properties of GMRES for real numbers

The rotations of the code change the basis step by step: `pv k`, `v (k+1)` are turned into `gv k`, `pv (k+1)`. In the basis `gv 0, gv 1, …` the matrix is triangular.
-/

noncomputable section

namespace Verif.Solvers

open scoped BigOperators
open Finset (range)

variable {E : Type*} [NormedAddCommGroup E] [InnerProductSpace ℝ E]

local notation "⟪" x ", " y "⟫" => inner ℝ x y

theorem rotGen_real (dx dy : ℝ) : ∃ cs sn : ℝ, rotGen Real.sqrt dx dy = .ok (cs, sn) ∧ cs * cs + sn * sn = 1 ∧ -sn * dx + cs * dy = 0 ∧
    (dy ≠ 0 → cs * dx + sn * dy ≠ 0) ∧ (dy = 0 → cs = 1 ∧ sn = 0) := by
  unfold rotGen
  by_cases h0 : dy = 0
  · rw [if_pos h0]
    exact ⟨1, 0, rfl, by norm_num, by rw [h0]; ring, fun h => absurd h0 h, fun _ => ⟨rfl, rfl⟩⟩
  · rw [if_neg h0]
    have hsq : ∀ t : ℝ, Real.sqrt (1 + t * t) ≠ 0 ∧ Real.sqrt (1 + t * t) * Real.sqrt (1 + t * t) = 1 + t * t := by
      intro t
      have : 0 < 1 + t * t := by nlinarith [mul_self_nonneg t]
      exact ⟨(Real.sqrt_pos.2 this).ne', Real.mul_self_sqrt this.le⟩
    by_cases h1 : ‖dx‖ < ‖dy‖
    · rw [if_pos h1]
      dsimp only
      obtain ⟨n1, n2⟩ := hsq (dx / dy)
      rw [if_neg n1]
      generalize Real.sqrt (1 + dx / dy * (dx / dy)) = q at n1 n2
      have e1 : (q * dy) * (q * dy) = dy * dy + dx * dx := by
        have : (q * dy) * (q * dy) = (q * q) * (dy * dy) := by ring
        rw [this, n2]; field_simp
      refine ⟨_, _, rfl, ?_, ?_, ?_, fun h => absurd h h0⟩
      · field_simp
        nlinarith [e1]
      · field_simp; ring
      · intro _
        have : dx / dy * (1 / q) * dx + 1 / q * dy = q * dy := by
          field_simp
          nlinarith [e1]
        rw [this]
        exact mul_ne_zero n1 h0
    · rw [if_neg h1]
      dsimp only
      have hx : dx ≠ 0 := by
        intro h; rw [h, norm_zero] at h1; exact h1 (norm_pos_iff.2 h0)
      obtain ⟨n1, n2⟩ := hsq (dy / dx)
      rw [if_neg n1]
      generalize Real.sqrt (1 + dy / dx * (dy / dx)) = q at n1 n2
      have e1 : (q * dx) * (q * dx) = dx * dx + dy * dy := by
        have : (q * dx) * (q * dx) = (q * q) * (dx * dx) := by ring
        rw [this, n2]; field_simp
      refine ⟨_, _, rfl, ?_, ?_, ?_, fun h => absurd h h0⟩
      · field_simp
        nlinarith [e1]
      · field_simp; ring
      · intro _
        have : 1 / q * dx + dy / dx * (1 / q) * dy = q * dx := by
          field_simp
          nlinarith [e1]
        rw [this]
        exact mul_ne_zero n1 hx

theorem rotApp_real (cs sn dx dy : ℝ) : rotApp cs sn dx dy = (cs * dx + sn * dy, -sn * dx + cs * dy) := by
  simp [rotApp]

/-- The orthogonalization: what is left is orthogonal to the vectors, and the coefficients give back the vector. -/
theorem mgs_ok {v : Nat → Option E} {V : Nat → E} {n : Nat} (hv : ∀ k < n, v k = some (V k)) (ho : ∀ a < n, ∀ b < n, ⟪V a, V b⟫ = if a = b then 1 else 0)
    (w : E) (col : Nat → ℝ) : ∀ k ≤ n, ∃ w' col', mgs ℝ v w col k = .ok (w', col') ∧ w = w' + ∑ j ∈ range k, col' j • V j ∧
      (∀ j < k, ⟪V j, w'⟫ = 0) ∧ ∀ j, k ≤ j → col' j = col j := by
  intro k
  induction k with
  | zero => intro _; exact ⟨w, col, rfl, by simp, by intro j hj; omega, fun _ _ => rfl⟩
  | succ k ih =>
    intro hk
    obtain ⟨w', col', e, h1, h2, h3⟩ := ih (by omega)
    rw [mgs, e, Res.bind_ok, hv k (by omega)]
    refine ⟨_, _, rfl, ?_, ?_, ?_⟩
    · rw [Finset.sum_range_succ, Function.update_self]
      have : ∀ j ∈ range k, Function.update col' k ⟪w', V k⟫ j • V j = col' j • V j := by
        intro j hj
        rw [Function.update_of_ne (by have := Finset.mem_range.1 hj; omega)]
      rw [Finset.sum_congr rfl this]
      conv_lhs => rw [h1]
      abel
    · intro j hj
      rw [inner_sub_right, inner_smul_right, ho j (by omega) k (by omega)]
      rcases Nat.lt_or_ge j k with hjk | hjk
      · rw [h2 j hjk, if_neg (by omega)]; simp
      · obtain rfl : j = k := by omega
        rw [if_pos rfl, real_inner_comm]; simp
    · intro j hj
      rw [Function.update_of_ne (by omega)]
      exact h3 j (by omega)

/-- The vector which the next rotation turns. -/
def pv (cs sn : Nat → ℝ) (V : Nat → E) : Nat → E
  | 0 => V 0
  | k + 1 => (-sn k) • pv cs sn V k + cs k • V (k + 1)

/-- The vectors in which the matrix is triangular. -/
def gv (cs sn : Nat → ℝ) (V : Nat → E) (k : Nat) : E := cs k • pv cs sn V k + sn k • V (k + 1)

theorem pv_congr {cs cs' sn sn' : Nat → ℝ} {V V' : Nat → E} {i : Nat} (h1 : ∀ k < i, cs' k = cs k) (h2 : ∀ k < i, sn' k = sn k) (h3 : ∀ k ≤ i, V' k = V k) :
    ∀ k ≤ i, pv cs' sn' V' k = pv cs sn V k := by
  intro k
  induction k with
  | zero => intro _; exact h3 0 (by omega)
  | succ k ih => intro hk; rw [pv, pv, ih (by omega), h1 k (by omega), h2 k (by omega), h3 (k + 1) hk]

theorem gv_congr {cs cs' sn sn' : Nat → ℝ} {V V' : Nat → E} {i : Nat} (h1 : ∀ k < i, cs' k = cs k) (h2 : ∀ k < i, sn' k = sn k) (h3 : ∀ k ≤ i, V' k = V k) {k : Nat} (hk : k < i) :
    gv cs' sn' V' k = gv cs sn V k := by
  unfold gv
  rw [pv_congr h1 h2 h3 k (by omega), h1 k hk, h2 k hk, h3 (k + 1) (by omega)]

/-- A rotation changes coordinates as it changes vectors. -/
theorem rot_vec {cs sn : ℝ} (h : cs * cs + sn * sn = 1) (x y : ℝ) (p v : E) :
    x • p + y • v = (cs * x + sn * y) • (cs • p + sn • v) + (-sn * x + cs * y) • ((-sn) • p + cs • v) := by
  have e1 : (cs * x + sn * y) * cs + (-sn * x + cs * y) * -sn = x := by
    have : (cs * x + sn * y) * cs + (-sn * x + cs * y) * -sn = (cs * cs + sn * sn) * x := by ring
    rw [this, h, one_mul]
  have e2 : (cs * x + sn * y) * sn + (-sn * x + cs * y) * cs = y := by
    have : (cs * x + sn * y) * sn + (-sn * x + cs * y) * cs = (cs * cs + sn * sn) * y := by ring
    rw [this, h, one_mul]
  rw [smul_add, smul_add, smul_smul, smul_smul, smul_smul, smul_smul]
  have h1 : x • p = ((cs * x + sn * y) * cs) • p + ((-sn * x + cs * y) * -sn) • p := by rw [← add_smul, e1]
  have h2 : y • v = ((cs * x + sn * y) * sn) • v + ((-sn * x + cs * y) * cs) • v := by rw [← add_smul, e2]
  rw [h1, h2]
  abel

/-- The rotations applied to a column. -/
theorem rotCol_ok {cs sn : Nat → ℝ} (V : Nat → E) {i : Nat} (hu : ∀ k < i, cs k * cs k + sn k * sn k = 1) (col : Nat → ℝ) : ∀ k ≤ i,
    ∑ j ∈ range (k + 1), col j • V j = ∑ j ∈ range k, rotCol cs sn col k j • gv cs sn V j + rotCol cs sn col k k • pv cs sn V k ∧
    ∀ j, k < j → rotCol cs sn col k j = col j := by
  intro k
  induction k with
  | zero => intro _; exact ⟨by simp [rotCol, pv], fun _ _ => rfl⟩
  | succ k ih =>
    intro hk
    obtain ⟨h1, h2⟩ := ih (by omega)
    have e1 : rotCol cs sn col (k + 1) k = cs k * rotCol cs sn col k k + sn k * col (k + 1) := by
      rw [rotCol]; simp [rotApp_real, h2]
    have e2 : rotCol cs sn col (k + 1) (k + 1) = -sn k * rotCol cs sn col k k + cs k * col (k + 1) := by
      rw [rotCol]; simp [rotApp_real, h2]
    have e3 : ∀ j < k, rotCol cs sn col (k + 1) j = rotCol cs sn col k j := by
      intro j hj
      rw [rotCol]
      rw [Function.update_of_ne (by omega), Function.update_of_ne (by omega)]
    constructor
    · rw [Finset.sum_range_succ, h1, Finset.sum_range_succ _ k, e1, e2, add_assoc, rot_vec (hu k (by omega)) (rotCol cs sn col k k) (col (k + 1))]
      rw [Finset.sum_congr rfl fun j hj => by rw [← e3 j (Finset.mem_range.1 hj)]]
      rw [← add_assoc]
      rfl
    · intro j hj
      rw [rotCol]
      rw [Function.update_of_ne (by omega), Function.update_of_ne (by omega), h2 j (by omega)]

/-- The first `n` of the vectors `V`. -/
def spn (V : Nat → E) (n : Nat) : Submodule ℝ E := Submodule.span ℝ {x | ∃ k < n, x = V k}

theorem spn_mem {V : Nat → E} {n k : Nat} (h : k < n) : V k ∈ spn V n := Submodule.subset_span ⟨k, h, rfl⟩

theorem spn_mono {V : Nat → E} {n m : Nat} (h : n ≤ m) : spn V n ≤ spn V m := Submodule.span_mono (by rintro x ⟨k, hk, rfl⟩; exact ⟨k, by omega, rfl⟩)

theorem spn_orth {V : Nat → E} {n : Nat} {y : E} (h : ∀ k < n, ⟪V k, y⟫ = 0) {x : E} (hx : x ∈ spn V n) : ⟪x, y⟫ = 0 := by
  unfold spn at hx
  induction hx using Submodule.span_induction with
  | mem x hx => obtain ⟨k, hk, rfl⟩ := hx; exact h k hk
  | zero => exact inner_zero_left _
  | add x z _ _ h1 h2 => rw [inner_add_left, h1, h2, add_zero]
  | smul a x _ h1 => rw [real_inner_smul_left, h1, mul_zero]

theorem pv_mem (cs sn : Nat → ℝ) (V : Nat → E) (k : Nat) : pv cs sn V k ∈ spn V (k + 1) := by
  induction k with
  | zero => exact spn_mem (by omega)
  | succ k ih => exact Submodule.add_mem _ (Submodule.smul_mem _ _ (spn_mono (by omega) ih)) (Submodule.smul_mem _ _ (spn_mem (by omega)))

theorem gv_mem (cs sn : Nat → ℝ) (V : Nat → E) (k : Nat) : gv cs sn V k ∈ spn V (k + 2) :=
  Submodule.add_mem _ (Submodule.smul_mem _ _ (spn_mono (by omega) (pv_mem cs sn V k))) (Submodule.smul_mem _ _ (spn_mem (by omega)))

/-- The rotated vectors are orthonormal. -/
theorem rot_ortho {cs sn : Nat → ℝ} {V : Nat → E} {i : Nat} (hu : ∀ k < i, cs k * cs k + sn k * sn k = 1) (ho : ∀ a ≤ i, ∀ b ≤ i, ⟪V a, V b⟫ = if a = b then 1 else 0) :
    ⟪pv cs sn V i, pv cs sn V i⟫ = 1 ∧ (∀ a < i, ⟪gv cs sn V a, pv cs sn V i⟫ = 0) ∧ ∀ a < i, ∀ b < i, ⟪gv cs sn V a, gv cs sn V b⟫ = if a = b then 1 else 0 := by
  induction i with
  | zero => exact ⟨by rw [pv, ho 0 (le_refl _) 0 (le_refl _), if_pos rfl], by intro a ha; omega, by intro a ha; omega⟩
  | succ i ih =>
    obtain ⟨h1, h2, h3⟩ := ih (fun k hk => hu k (by omega)) fun a ha b hb => ho a (by omega) b (by omega)
    have hV : ∀ k < i + 1, ⟪V k, V (i + 1)⟫ = 0 := fun k hk => by rw [ho k (by omega) (i + 1) (by omega), if_neg (by omega)]
    have hp : ⟪pv cs sn V i, V (i + 1)⟫ = 0 := spn_orth hV (pv_mem cs sn V i)
    have hp' : ⟪V (i + 1), pv cs sn V i⟫ = 0 := by rw [real_inner_comm]; exact hp
    have hg : ∀ a < i, ⟪gv cs sn V a, V (i + 1)⟫ = 0 := fun a ha => spn_orth hV (spn_mono (by omega) (gv_mem cs sn V a))
    have hvv : ⟪V (i + 1), V (i + 1)⟫ = 1 := by rw [ho (i + 1) (by omega) (i + 1) (by omega), if_pos rfl]
    have hi := hu i (by omega)
    have gp : ∀ a < i, ⟪gv cs sn V a, gv cs sn V i⟫ = 0 := by
      intro a ha
      rw [show gv cs sn V i = cs i • pv cs sn V i + sn i • V (i + 1) from rfl, inner_add_right, real_inner_smul_right, real_inner_smul_right, h2 a ha, hg a ha]; ring
    refine ⟨?_, ?_, ?_⟩
    · rw [pv, inner_add_left, inner_add_right, inner_add_right]
      simp only [real_inner_smul_left, real_inner_smul_right, h1, hp, hp', hvv]
      linarith
    · intro a ha
      rw [pv, inner_add_right, real_inner_smul_right, real_inner_smul_right]
      rcases Nat.lt_or_ge a i with hai | hai
      · rw [h2 a hai, hg a hai]; ring
      · obtain rfl : a = i := by omega
        rw [gv, inner_add_left, inner_add_left]
        simp only [real_inner_smul_left, h1, hp, hp', hvv]
        ring
    · intro a ha b hb
      rcases Nat.lt_or_ge a i with hai | hai
      · rcases Nat.lt_or_ge b i with hbi | hbi
        · exact h3 a hai b hbi
        · obtain rfl : b = i := by omega
          rw [gp a hai, if_neg (by omega)]
      · obtain rfl : a = i := by omega
        rcases Nat.lt_or_ge b a with hbi | hbi
        · rw [real_inner_comm, gp b hbi, if_neg (by omega)]
        · obtain rfl : b = a := by omega
          rw [if_pos rfl, gv, inner_add_left, inner_add_right, inner_add_right]
          simp only [real_inner_smul_left, real_inner_smul_right, h1, hp, hp', hvv]
          linarith

/-- The back substitution solves the triangular system. -/
theorem backsolve_ok {H : Nat → Nat → ℝ} : ∀ (t : Nat), (∀ j < t, H j j ≠ 0) → ∀ y : Nat → ℝ, ∃ y', backsolve H t y = .ok y' ∧ (∀ j, t ≤ j → y' j = y j) ∧
    ∀ k < t, ∑ j ∈ Finset.Ico k t, H k j * y' j = y k := by
  intro t
  induction t with
  | zero => intro _ y; exact ⟨y, rfl, fun _ _ => rfl, by intro k hk; omega⟩
  | succ t ih =>
    intro hH y
    rw [backsolve, if_neg (hH t (by omega))]
    obtain ⟨y', e, h1, h2⟩ := ih (fun j hj => hH j (by omega)) (fun j => if j = t then y t / H t t else if j < t then y j - H j t * (y t / H t t) else y j)
    refine ⟨y', e, ?_, ?_⟩
    · intro j hj
      rw [h1 j (by omega), if_neg (by omega), if_neg (by omega)]
    · intro k hk
      have ht : y' t = y t / H t t := by rw [h1 t (le_refl _), if_pos rfl]
      rw [Finset.sum_Ico_succ_top (by omega), ht]
      rcases Nat.lt_or_ge k t with hkt | hkt
      · rw [h2 k hkt, if_neg (by omega), if_pos hkt]; ring
      · obtain rfl : k = t := by omega
        rw [Finset.Ico_self, Finset.sum_empty, zero_add]
        have := hH k (by omega)
        field_simp

theorem addAll_ok {v : Nat → Option E} {V : Nat → E} {n : Nat} (hv : ∀ k < n, v k = some (V k)) (y : Nat → ℝ) (x : E) : ∀ k ≤ n, addAll v y x k = .ok (x + ∑ j ∈ range k, y j • V j) := by
  intro k
  induction k with
  | zero => intro _; simp [addAll]
  | succ k ih =>
    intro hk
    rw [addAll, ih (by omega), Res.bind_ok, hv k (by omega), Finset.sum_range_succ]
    simp only [Res.ok.injEq]
    abel

end Verif.Solvers
