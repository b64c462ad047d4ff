import Mathlib.Tactic.FieldSimp
import Mathlib.Tactic.LinearCombination
import Mathlib.Data.Fintype.BigOperators
import Mathlib.Algebra.BigOperators.Fin
import Mathlib.LinearAlgebra.Matrix.Notation
import Verif.Sites.Build

/-! # C80: the operators of spins of any size and of bosons with any cut-off -/

open Matrix Finset

namespace Verif.Sites

/-- The relations of the operators of a spin `s`. -/
structure SpinAlgebra {d : Nat} (s : ℂ) (Sz Sp Sm : Matrix (Fin d) (Fin d) ℂ) : Prop where
  herm : Szᴴ = Sz
  adj : Spᴴ = Sm
  comm : Sp * Sm - Sm * Sp = 2 • Sz
  raise : Sz * Sp - Sp * Sz = Sp
  lower : Sz * Sm - Sm * Sz = -Sm
  casimir : Sz * Sz + (1 / 2 : ℂ) • (Sp * Sm + Sm * Sp) = (s * (s + 1)) • 1

/-! ## Matrices with one diagonal -/

/-- Elements `w c` below the diagonal. -/
def below (d : Nat) (w : Nat → ℂ) : Matrix (Fin d) (Fin d) ℂ := fun r c => if r.val = c.val + 1 then w c.val else 0

/-- Elements `w r` above the diagonal. -/
def above (d : Nat) (w : Nat → ℂ) : Matrix (Fin d) (Fin d) ℂ := fun r c => if c.val = r.val + 1 then w r.val else 0

/-- A diagonal matrix. -/
def diag (d : Nat) (w : Nat → ℂ) : Matrix (Fin d) (Fin d) ℂ := fun r c => if r = c then w c.val else 0

theorem diag_mul (d : Nat) (w : Nat → ℂ) (M : Matrix (Fin d) (Fin d) ℂ) (r c : Fin d) :
    (diag d w * M) r c = w r.val * M r c := by
  rw [mul_apply, Finset.sum_eq_single r]
  · simp [diag]
  · intro b _ hb; simp [diag, Ne.symm hb]
  · simp

theorem mul_diag (d : Nat) (w : Nat → ℂ) (M : Matrix (Fin d) (Fin d) ℂ) (r c : Fin d) :
    (M * diag d w) r c = M r c * w c.val := by
  rw [mul_apply, Finset.sum_eq_single c]
  · simp [diag]
  · intro b _ hb; simp [diag, hb]
  · simp

theorem below_above (d : Nat) (w w' : Nat → ℂ) :
    below d w * above d w' = diag d fun c => if c = 0 then 0 else w (c - 1) * w' (c - 1) := by
  ext r c
  rw [mul_apply]
  by_cases hrc : r = c
  · subst hrc
    by_cases h0 : r.val = 0
    · rw [Finset.sum_eq_zero]
      · simp [diag, h0]
      · intro k _; simp [below, h0]
    · rw [Finset.sum_eq_single ⟨r.val - 1, by omega⟩]
      · have : r.val = r.val - 1 + 1 := by omega
        simp [below, above, diag, h0, ← this]
      · intro k _ hk
        have : ¬r.val = k.val + 1 := fun h => hk (Fin.ext (by simp only; omega))
        simp [below, this]
      · simp
  · rw [Finset.sum_eq_zero]
    · simp [diag, hrc]
    · intro k _
      by_cases h1 : r.val = k.val + 1
      · have : ¬c.val = k.val + 1 := fun h => hrc (Fin.ext (by omega))
        simp [above, this]
      · simp [below, h1]

theorem above_below (d : Nat) (w w' : Nat → ℂ) :
    above d w * below d w' = diag d fun c => if c + 1 = d then 0 else w c * w' c := by
  ext r c
  rw [mul_apply]
  by_cases hrc : r = c
  · subst hrc
    by_cases h0 : r.val + 1 = d
    · rw [Finset.sum_eq_zero]
      · simp [diag, h0]
      · intro k _
        have : ¬k.val = r.val + 1 := by omega
        simp [above, this]
    · rw [Finset.sum_eq_single ⟨r.val + 1, by omega⟩]
      · simp [below, above, diag, h0]
      · intro k _ hk
        have : ¬k.val = r.val + 1 := fun h => hk (Fin.ext (by simp only; omega))
        simp [above, this]
      · simp
  · rw [Finset.sum_eq_zero]
    · simp [diag, hrc]
    · intro k _
      by_cases h1 : k.val = r.val + 1
      · have : ¬k.val = c.val + 1 := fun h => hrc (Fin.ext (by omega))
        simp [below, this]
      · simp [above, h1]

/-! ## CustomSpin -/

theorem custom_uniform {D : Nat} {cq csz : Option Bool} {q : Option QNs} (hq : customQN D cq csz = .ok q) {name : String}
    {l : List (Nat × Nat × ℂ)} (hl : customOp D name = some l) : Uniform q l := by
  rintro q' rfl p hp p' hp'
  unfold customQN at hq
  simp only at hq
  split_ifs at hq
  · cases hq
    unfold customOp at hl
    split_ifs at hl <;> cases hl <;> rw [List.mem_map] at hp hp' <;> obtain ⟨a, ha, rfl⟩ := hp <;>
      obtain ⟨b, hb, rfl⟩ := hp' <;> rw [List.mem_range'_1] at ha hb <;>
      simp only [QNs.flux, List.zip_cons_cons, List.zip_nil_right, List.map_cons, List.map_nil, red] <;> simp <;> omega
  · cases hq; rfl
  · cases hq

/-- The weights of the raising operator. -/
noncomputable def wS (D c : Nat) : ℂ := (Real.sqrt (((D : ℝ) - c) * (c + 1)) : ℂ)

theorem custom_sz (D : Nat) : mat (D + 1) ((List.range' 1 (D + 1)).map fun i => (i, i, (customSz D i : ℂ))) =
    diag (D + 1) fun c => -(D : ℂ) / 2 + c := by
  ext r c
  have := mat_range (d := D + 1) 0 (D + 1) id (fun i => (customSz D i : ℂ)) r c
  simp only [zero_add, id] at this
  rw [this, diag]
  by_cases h : r = c
  · subst h
    rw [if_pos ⟨by omega, by omega, rfl⟩, if_pos rfl]
    simp only [customSz]
    push_cast
    ring
  · rw [if_neg (fun hh => h (Fin.ext (by omega))), if_neg h]

theorem custom_sz2 (D : Nat) : mat (D + 1) ((List.range' 1 (D + 1)).map fun i => (i, i, ((customSz D i) ^ 2 : ℂ))) =
    diag (D + 1) fun c => (-(D : ℂ) / 2 + c) ^ 2 := by
  ext r c
  have := mat_range (d := D + 1) 0 (D + 1) id (fun i => ((customSz D i : ℂ) ^ 2)) r c
  simp only [zero_add, id] at this
  rw [this, diag]
  by_cases h : r = c
  · subst h
    rw [if_pos ⟨by omega, by omega, rfl⟩, if_pos rfl]
    simp only [customSz]
    push_cast
    ring
  · rw [if_neg (fun hh => h (Fin.ext (by omega))), if_neg h]

theorem custom_below (D : Nat) (v : Nat → ℂ) :
    mat (D + 1) ((List.range' 1 D).map fun i => (i, i + 1, v i)) = below (D + 1) fun c => v (c + 1) := by
  ext r c
  have := mat_range (d := D + 1) 0 D (· + 1) v r c
  simp only [zero_add] at this
  rw [this, below]
  by_cases h : r.val = c.val + 1
  · rw [if_pos ⟨by omega, by omega, by omega⟩, if_pos h]
  · rw [if_neg (by omega), if_neg h]

theorem custom_above (D : Nat) (v : Nat → ℂ) :
    mat (D + 1) ((List.range' 2 D).map fun i => (i, i - 1, v i)) = above (D + 1) fun c => v (c + 2) := by
  ext r c
  have := mat_range (d := D + 1) 1 D (· - 1) v r c
  simp only [one_add_one_eq_two] at this
  rw [this, above]
  by_cases h : c.val = r.val + 1
  · rw [if_pos ⟨by omega, by omega, by omega⟩, if_pos h, h]
  · rw [if_neg (by omega), if_neg h]

theorem custom_sp (D : Nat) : (fun c : Nat =>
    (Real.sqrt ((D / 2 - customSz D (c + 1)) * (D / 2 + customSz D (c + 1) + 1)) : ℂ)) = wS D := by
  funext c
  unfold wS customSz
  congr 2
  push_cast
  ring

theorem custom_sm (D : Nat) : (fun c : Nat =>
    (Real.sqrt ((D / 2 + customSz D (c + 2)) * (D / 2 - customSz D (c + 2) + 1)) : ℂ)) = wS D := by
  funext c
  unfold wS customSz
  congr 2
  push_cast
  ring

theorem wS_sq {D c : Nat} (h : c ≤ D) : wS D c * wS D c = ((D : ℂ) - c) * (c + 1) := by
  unfold wS
  rw [← Complex.ofReal_mul, Real.mul_self_sqrt]
  · push_cast; rfl
  · have : (c : ℝ) ≤ D := by exact_mod_cast h
    have := sub_nonneg.2 this
    positivity

theorem star_wS (D c : Nat) : star (wS D c) = wS D c := Complex.conj_ofReal _

theorem below_star (d : Nat) (w : Nat → ℂ) (h : ∀ c, star (w c) = w c) : (below d w)ᴴ = above d w := by
  ext r c
  simp only [conjTranspose_apply, below, above]
  split_ifs <;> simp [h]

/-- The relations for the explicit matrices. -/
theorem spin_algebra (D : Nat) :
    SpinAlgebra ((D : ℂ) / 2) (diag (D + 1) fun c => -(D : ℂ) / 2 + c) (below (D + 1) (wS D)) (above (D + 1) (wS D)) := by
  have hba : ∀ c : Fin (D + 1), (if c.val = 0 then 0 else wS D (c.val - 1) * wS D (c.val - 1)) =
      ((D : ℂ) - c.val + 1) * c.val := by
    intro c
    split_ifs with h
    · rw [h]; simp
    · rw [wS_sq (by omega)]
      have : ((c.val - 1 : Nat) : ℂ) = (c.val : ℂ) - 1 := by rw [Nat.cast_sub (by omega)]; simp
      rw [this]
      ring
  have hab : ∀ c : Fin (D + 1), (if c.val + 1 = D + 1 then 0 else wS D c.val * wS D c.val) =
      ((D : ℂ) - c.val) * (c.val + 1) := by
    intro c
    split_ifs with h
    · have : c.val = D := by omega
      rw [this]; simp
    · rw [wS_sq (by omega)]
  refine ⟨?_, below_star _ _ (star_wS D), ?_, ?_, ?_, ?_⟩
  · ext r c
    simp only [conjTranspose_apply, diag]
    by_cases h : r = c
    · subst h; simp
    · simp [h, Ne.symm h]
  · ext r c
    rw [below_above, above_below]
    simp only [Matrix.sub_apply, Matrix.smul_apply, diag]
    by_cases h : r = c
    · subst h
      simp only [if_true]
      rw [hba, hab, nsmul_eq_mul]
      push_cast
      ring
    · simp [h]
  · ext r c
    rw [Matrix.sub_apply, diag_mul, mul_diag]
    simp only [below]
    split_ifs with h
    · rw [h]; push_cast; ring
    · simp
  · ext r c
    rw [Matrix.sub_apply, diag_mul, mul_diag, Matrix.neg_apply]
    simp only [above]
    split_ifs with h
    · rw [h]; push_cast; ring
    · simp
  · ext r c
    rw [below_above, above_below, Matrix.add_apply, diag_mul]
    simp only [Matrix.add_apply, Matrix.smul_apply, diag, one_apply, smul_eq_mul]
    by_cases h : r = c
    · subst h
      simp only [if_true]
      rw [hba, hab]
      ring
    · simp [h]

/-- **C80.** For every spin and all arguments that are accepted, the operators exist and are those of the spin. -/
theorem C80_custom (D : Nat) (cq csz : Option Bool) (q : Option QNs) (hq : customQN D cq csz = .ok q) :
    ∃ Sz Sp Sm U V Sz2, op (D + 1) q (customOp D) "Sz" = .ok Sz ∧ op (D + 1) q (customOp D) "S+" = .ok Sp ∧
      op (D + 1) q (customOp D) "S-" = .ok Sm ∧ op (D + 1) q (customOp D) "U+" = .ok U ∧
      op (D + 1) q (customOp D) "U-" = .ok V ∧ op (D + 1) q (customOp D) "Sz2" = .ok Sz2 ∧
      SpinAlgebra ((D : ℂ) / 2) Sz Sp Sm ∧ Sz2 = Sz * Sz ∧ Uᴴ = V ∧
      (∀ r c, U r c = if r.val = c.val + 1 then 1 else 0) ∧
      (∀ c : Fin (D + 1), 2 * Sz c c = ((2 * c.val - D : Int) : ℂ)) := by
  refine ⟨_, _, _, _, _, _, op_ok rfl (custom_uniform hq (name := "Sz") rfl),
    op_ok rfl (custom_uniform hq (name := "S+") rfl), op_ok rfl (custom_uniform hq (name := "S-") rfl),
    op_ok rfl (custom_uniform hq (name := "U+") rfl), op_ok rfl (custom_uniform hq (name := "U-") rfl),
    op_ok rfl (custom_uniform hq (name := "Sz2") rfl), ?_, ?_, ?_, ?_, ?_⟩
  · rw [custom_sz, custom_below, custom_above, custom_sp, custom_sm]
    exact spin_algebra D
  · rw [custom_sz2, custom_sz]
    ext r c
    rw [diag_mul]
    simp only [diag]
    split_ifs with h
    · subst h; ring
    · simp
  · rw [custom_below D fun _ => 1, custom_above D fun _ => 1]
    exact below_star _ _ fun _ => star_one _
  · intro r c
    rw [custom_below D fun _ => 1]
    rfl
  · intro c
    rw [custom_sz]
    simp only [diag, if_true]
    push_cast
    ring

/-- The state of a name has twice its value of Sz as name, with and without quantum numbers. -/
theorem C80_custom_state (D : Nat) (name : String) (k : Nat) (h : customState D name = .ok k) :
    1 ≤ k ∧ k ≤ D + 1 ∧ name = toString (2 * ((k : Int) - 1) - D) ∧
      ∀ cq csz q, customQN D cq csz = .ok (some q) → q.mods ≠ [] → q.vals k = [2 * ((k : Int) - 1) - D] := by
  unfold customState at h
  split at h
  · rename_i n hn
    cases h
    have h1 := List.mem_of_find?_eq_some hn
    have h2 := List.find?_some hn
    rw [List.mem_range] at h1
    refine ⟨by omega, by omega, ?_, ?_⟩
    · rw [of_decide_eq_true h2]; congr 1; push_cast; ring
    · intro cq csz q hq hm
      unfold customQN at hq
      simp only at hq
      split_ifs at hq <;> cases hq
      · rfl
      · exact absurd rfl hm
  · cases h

/-- A half-integer spin given as a real number is that spin. -/
theorem C80_custom_arg (k : Nat) (hk : 1 ≤ k) : customTwoS none (some ((k : ℝ) / 2)) = .ok (k : Int) ∧
    customTwoS (some (k : Int)) none = .ok (k : Int) := by
  have hr : roundC (2 * ((k : ℝ) / 2) + 1 / 100) = k := by
    unfold roundC
    rw [if_pos (by positivity), Int.floor_eq_iff]
    constructor <;> push_cast <;> linarith
  constructor
  · simp only [customTwoS, Res.bind_ok, hr]
    rw [if_neg (by omega)]
  · simp only [customTwoS, Res.bind_ok]
    rw [if_neg (by omega)]

/-! ## Boson -/

theorem boson_uniform {m : Nat} {cq cnb : Option Bool} {q : Option QNs} (hq : bosonQN cq cnb = .ok q) {name : String}
    {l : List (Nat × Nat × ℂ)} (hl : bosonOp m name = some l) : Uniform q l := by
  rintro q' rfl p hp p' hp'
  unfold bosonQN at hq
  simp only at hq
  split_ifs at hq
  · cases hq
    unfold bosonOp at hl
    split_ifs at hl <;> cases hl <;> rw [List.mem_map] at hp hp' <;> obtain ⟨a, ha, rfl⟩ := hp <;>
      obtain ⟨b, hb, rfl⟩ := hp' <;>
      simp only [QNs.flux, List.zip_cons_cons, List.zip_nil_right, List.map_cons, List.map_nil, red] <;> simp <;> omega
  · cases hq; rfl
  · cases hq

theorem boson_n (m : Nat) : mat (m + 1) ((List.range' 1 (1 + m)).map fun n => (n, n, (n : ℂ) - 1)) =
    diag (m + 1) fun c => (c : ℂ) := by
  ext r c
  have := mat_range (d := m + 1) 0 (1 + m) id (fun n => (n : ℂ) - 1) r c
  simp only [zero_add, id] at this
  rw [this, diag]
  by_cases h : r = c
  · subst h
    rw [if_pos ⟨by omega, by omega, rfl⟩, if_pos rfl]
    push_cast
    ring
  · rw [if_neg (fun hh => h (Fin.ext (by omega))), if_neg h]

theorem boson_adag (m : Nat) : mat (m + 1) ((List.range' 1 m).map fun n => (n, 1 + n, (Real.sqrt n : ℂ))) =
    below (m + 1) fun c => (Real.sqrt ((c : ℝ) + 1) : ℂ) := by
  have := custom_below m fun n => (Real.sqrt n : ℂ)
  simp only [Nat.add_comm 1]
  rw [this]
  simp

theorem boson_a (m : Nat) : mat (m + 1) ((List.range' 1 m).map fun n : Nat => (1 + n, n, (Real.sqrt n : ℂ))) =
    above (m + 1) fun c => (Real.sqrt ((c : ℝ) + 1) : ℂ) := by
  have h : (List.range' 1 m).map (fun n : Nat => (1 + n, n, (Real.sqrt n : ℂ))) =
      (List.range' 2 m).map fun n : Nat => (n, n - 1, (Real.sqrt ((n - 1 : Nat) : ℝ) : ℂ)) := by
    rw [show (2 : Nat) = 1 + 1 from rfl, ← List.map_add_range', List.map_map]
    apply List.map_congr_left
    intro n _
    simp
  rw [h, custom_above]
  simp

/-- **C80.** For every cut-off and all arguments that are accepted, the operators exist, are those of a boson below the
cut-off, and only the highest state is different. -/
theorem C80_boson (m : Nat) (cq cnb : Option Bool) (q : Option QNs) (hq : bosonQN cq cnb = .ok q) :
    ∃ N A Ad, op (m + 1) q (bosonOp m) "N" = .ok N ∧ op (m + 1) q (bosonOp m) "n" = .ok N ∧
      op (m + 1) q (bosonOp m) "A" = .ok A ∧ op (m + 1) q (bosonOp m) "Adag" = .ok Ad ∧
      Aᴴ = Ad ∧ N = Ad * A ∧ (∀ r c, N r c = if r = c then (c.val : ℂ) else 0) ∧
      A * Ad - Ad * A = 1 - ((m : ℂ) + 1) • single (Fin.last m) (Fin.last m) 1 := by
  have hs : ∀ c : Nat, star ((Real.sqrt ((c : ℝ) + 1) : ℂ)) = (Real.sqrt ((c : ℝ) + 1) : ℂ) := fun c =>
    Complex.conj_ofReal _
  have hsq : ∀ c : Nat, (Real.sqrt ((c : ℝ) + 1) : ℂ) * (Real.sqrt ((c : ℝ) + 1) : ℂ) = (c : ℂ) + 1 := by
    intro c
    rw [← Complex.ofReal_mul, Real.mul_self_sqrt (by positivity)]
    push_cast
    rfl
  refine ⟨_, _, _, op_ok rfl (boson_uniform hq (name := "N") rfl), op_ok rfl (boson_uniform hq (name := "n") rfl),
    op_ok rfl (boson_uniform hq (name := "A") rfl), op_ok rfl (boson_uniform hq (name := "Adag") rfl), ?_, ?_, ?_, ?_⟩
  · rw [boson_a, boson_adag, ← below_star _ _ hs, conjTranspose_conjTranspose]
  · rw [boson_n, boson_a, boson_adag, below_above]
    ext r c
    simp only [diag]
    split_ifs with h h0
    · rw [h0]; simp
    · rw [hsq, Nat.cast_sub (by omega)]; simp
    · rfl
  · intro r c
    rw [boson_n]
    rfl
  · rw [boson_a, boson_adag, below_above, above_below]
    ext r c
    simp only [Matrix.sub_apply, Matrix.smul_apply, diag, one_apply, single_apply, smul_eq_mul]
    by_cases h : r = c
    · subst h
      simp only [if_true, and_self]
      by_cases hl : r.val = m
      · have : Fin.last m = r := Fin.ext hl.symm
        rw [if_pos (by omega), if_pos this]
        split_ifs with h0
        · have : (m : ℂ) = 0 := by rw [← hl, h0]; simp
          rw [this]; ring
        · rw [hsq, Nat.cast_sub (by omega), hl]; push_cast; ring
      · have : ¬Fin.last m = r := fun h => hl (by rw [← h]; rfl)
        rw [if_neg (by omega), if_neg this, hsq]
        split_ifs with h0
        · rw [h0]; simp
        · rw [hsq, Nat.cast_sub (by omega)]; push_cast; ring
    · have : ¬(Fin.last m = r ∧ Fin.last m = c) := fun hh => h (hh.1.symm.trans hh.2)
      simp [h, this]

/-- The numbers that are conserved are those of the states: the raising operator of a spin changes "Sz" by 2, that of a
boson changes "Nb" by 1. -/
theorem C80_raise (D : Nat) : (∃ q, customQN D none none = .ok (some q) ∧ ∀ c, q.flux c (c + 1) = [2]) ∧
    ∃ q, bosonQN none none = .ok (some q) ∧ ∀ c, q.flux c (c + 1) = [1] := by
  refine ⟨⟨_, rfl, fun c => ?_⟩, ⟨_, rfl, fun c => ?_⟩⟩ <;>
    simp only [QNs.flux, List.zip_cons_cons, List.zip_nil_right, List.map_cons, List.map_nil, red] <;> simp <;> ring

end Verif.Sites
