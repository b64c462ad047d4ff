import Verif.MPS.Lattice
import Mathlib.Tactic.SplitIfs

/-!
# C53: lattice graphs
-/

namespace Verif.Lattice

/-- The pairs of sites of a list of bonds. -/
def pairs (l : List Bond) : List (Nat × Nat) := l.map fun b => (b.s1, b.s2)

theorem pairs_flatMap (f : Nat → List Bond) (l : List Nat) : pairs (l.flatMap f) = l.flatMap fun i => pairs (f i) := by
  simp [pairs, List.map_flatMap]

/-! ### Square lattice -/

theorem squareAt_pairs (Nx Ny : Nat) (yper : Bool) {X Y : Nat} (hx : X < Nx) (hy : Y < Ny) :
    pairs (squareAt Nx Ny yper (X * Ny + Y + 1)) =
      (if X + 1 < Nx then [(X * Ny + Y + 1, X * Ny + Y + 1 + Ny)] else []) ++
      (if Ny > 1 then
        (if Y + 1 < Ny then [(X * Ny + Y + 1, X * Ny + Y + 1 + 1)] else []) ++
        (if yper = true ∧ Y = 0 then [(X * Ny + Y + 1, X * Ny + Y + 1 + Ny - 1)] else [])
      else []) := by
  obtain ⟨_, h1, h2⟩ := coords_of hx hy
  simp only [squareAt, Nat.add_sub_cancel, h1, h2, Nat.add_eq_right, pairs]
  split_ifs <;> simp_all

theorem sum_ite_and (p : Prop) [Decidable p] (q : Nat → Prop) [DecidablePred q] (n : Nat) (c : Nat) :
    ((List.range n).map fun y => if p ∧ q y then c else 0).sum =
      if p then ((List.range n).map fun y => if q y then c else 0).sum else 0 := by
  by_cases h : p <;> simp [h]

theorem square_count {Nx Ny : Nat} (hx : 1 ≤ Nx) (hy : 1 ≤ Ny) (yper : Bool) (hp : yper = true → 2 < Ny) :
    (((List.range (Nx * Ny)).flatMap fun i => squareAt Nx Ny yper (i + 1)).length : Int) =
      2 * (Nx * Ny : Nat) - Ny + (if yper then 0 else -(Nx : Int)) := by
  have hlen : ((List.range (Nx * Ny)).flatMap fun i => squareAt Nx Ny yper (i + 1)).length =
      (Nx - 1) * Ny + (Nx * (Ny - 1) + if yper then Nx else 0) := by
    rw [List.length_flatMap, sum_grid]
    have : ∀ x ∈ List.range Nx, ((List.range Ny).map fun y => (squareAt Nx Ny yper (x * Ny + y + 1)).length).sum =
        (if x + 1 < Nx then Ny else 0) + ((Ny - 1) + if yper then 1 else 0) := by
      intro x hxx
      have hx' := List.mem_range.1 hxx
      have : ∀ y ∈ List.range Ny, (squareAt Nx Ny yper (x * Ny + y + 1)).length =
          (if x + 1 < Nx then 1 else 0) + ((if y + 1 < Ny then 1 else 0) + if yper = true ∧ y = 0 then 1 else 0) := by
        intro y hyy
        have hy' := List.mem_range.1 hyy
        have := congrArg List.length (squareAt_pairs Nx Ny yper hx' hy')
        rw [pairs, List.length_map] at this
        rw [this]
        by_cases h1 : Ny > 1
        · simp only [h1, if_true]
          split_ifs <;> simp
        · have : ¬ (yper = true ∧ y = 0) := fun h => by have := hp h.1; omega
          have h3 : ¬ y + 1 < Ny := by omega
          simp only [h1, this, h3, if_false]
          split_ifs <;> simp
      rw [List.map_congr_left this, sum_add, sum_add, sum_const, sum_lt, sum_ite_and, sum_zero_eq]
      split_ifs <;> simp <;> omega
    rw [List.map_congr_left this, sum_add, sum_const, sum_lt]
    split_ifs <;> simp [Nat.mul_add]
  rw [hlen]
  obtain ⟨a, rfl⟩ : ∃ a, Nx = a + 1 := ⟨Nx - 1, by omega⟩
  obtain ⟨b, rfl⟩ : ∃ b, Ny = b + 1 := ⟨Ny - 1, by omega⟩
  split_ifs <;> push_cast <;> ring_nf <;> simp <;> ring

theorem square_mem {Nx Ny : Nat} (per : Bool) (a b : Nat) :
    (a, b) ∈ pairs ((List.range (Nx * Ny)).flatMap fun i => squareAt Nx Ny (per && decide (Ny > 2)) (i + 1)) ↔
      IsBond Nx Ny (squareStep Ny per) a b := by
  rw [pairs_flatMap, List.mem_flatMap]
  have key : ∀ X Y, X < Nx → Y < Ny → ((a, b) ∈ pairs (squareAt Nx Ny (per && decide (Ny > 2)) (X * Ny + Y + 1)) ↔
      a = X * Ny + Y + 1 ∧ ((X + 1 < Nx ∧ b = X * Ny + Y + 1 + Ny) ∨ (Y + 1 < Ny ∧ b = X * Ny + Y + 2) ∨
        (per = true ∧ 2 < Ny ∧ Y = 0 ∧ b = X * Ny + Y + Ny))) := by
    intro X Y hX hY
    rw [squareAt_pairs _ _ _ hX hY]
    cases per
    · simp only [Bool.false_and, Bool.false_eq_true, false_and, if_false]
      split_ifs <;> simp <;> omega
    · simp only [Bool.true_and, decide_eq_true_eq, true_and]
      split_ifs <;> simp <;> omega
  constructor
  · rintro ⟨i, hi, hb⟩
    obtain ⟨X, Y, hX, hY, rfl, -, -⟩ := coords (List.mem_range.1 hi)
    obtain ⟨rfl, h⟩ := (key X Y hX hY).1 hb
    rcases h with ⟨h1, rfl⟩ | ⟨h1, rfl⟩ | ⟨h0, h1, h2, rfl⟩
    · refine ⟨by omega, X + 1, Y + 1, X + 2, Y + 1, by omega, by omega, by omega, by omega, by omega, by omega, by omega,
        by omega, by simp [site]; omega, ?_, Or.inl (Or.inl ⟨rfl, rfl⟩)⟩
      simp only [site, show X + 2 - 1 = X + 1 by omega, Nat.add_mul, Nat.one_mul]; omega
    · exact ⟨by omega, X + 1, Y + 1, X + 1, Y + 2, by omega, by omega, by omega, by omega, by omega, by omega, by omega,
        by omega, by simp [site]; omega, by simp [site]; omega, Or.inl (Or.inr ⟨rfl, Or.inl rfl⟩)⟩
    · exact ⟨by omega, X + 1, 1, X + 1, Ny, by omega, by omega, by omega, by omega, by omega, by omega, by omega,
        by omega, by simp [site]; omega, by simp [site]; omega, Or.inr (Or.inr ⟨rfl, Or.inr ⟨h0, h1, rfl, rfl⟩⟩)⟩
  · rintro ⟨hab, x, y, x', y', hx1, hx2, hy1, hy2, hx1', hx2', hy1', hy2', ha, hb, hadj⟩
    obtain ⟨X, rfl⟩ : ∃ X, x = X + 1 := ⟨x - 1, by omega⟩
    obtain ⟨Y, rfl⟩ : ∃ Y, y = Y + 1 := ⟨y - 1, by omega⟩
    obtain ⟨X', rfl⟩ : ∃ X, x' = X + 1 := ⟨x' - 1, by omega⟩
    obtain ⟨Y', rfl⟩ : ∃ Y, y' = Y + 1 := ⟨y' - 1, by omega⟩
    simp only [site, Nat.add_sub_cancel] at ha hb
    refine ⟨X * Ny + Y, List.mem_range.2 (coords_of (by omega) (by omega)).1, (key X Y (by omega) (by omega)).2 ⟨by omega, ?_⟩⟩
    rcases hadj with (⟨e1, e2⟩ | ⟨e1, e2 | ⟨e2, e3, e4, e5⟩⟩) | (⟨e1, e2⟩ | ⟨e1, e2 | ⟨e2, e3, e4, e5⟩⟩)
    · obtain rfl : X' = X + 1 := by omega
      rw [Nat.add_mul] at hb; omega
    · obtain rfl : X' = X := by omega
      omega
    · obtain rfl : X' = X := by omega
      omega
    · obtain rfl : X = X' + 1 := by omega
      rw [Nat.add_mul] at ha; omega
    · obtain rfl : X = X' := by omega
      omega
    · obtain rfl : X = X' := by omega
      exact Or.inr (Or.inr ⟨e2, e3, by omega, by omega⟩)

theorem square_nodup {Nx Ny : Nat} (yper : Bool) (hp : yper = true → 2 < Ny) :
    (pairs ((List.range (Nx * Ny)).flatMap fun i => squareAt Nx Ny yper (i + 1))).Nodup := by
  rw [pairs_flatMap]
  apply nodup_sites
  · intro i hi b hb
    simp only [pairs, squareAt, List.mem_map] at hb
    grind
  · intro i hi
    obtain ⟨X, Y, hX, hY, rfl, -, -⟩ := coords hi
    rw [squareAt_pairs _ _ _ hX hY]
    split_ifs with h1 h2 h3 h4 <;> simp <;> (try (have := hp (by tauto))) <;> (try omega)

/-! ### Triangular lattice -/

theorem triAt_pairs (Nx Ny : Nat) (yper : Bool) {X Y : Nat} (hx : X < Nx) (hy : Y < Ny) :
    pairs (triAt Nx Ny yper (X * Ny + Y + 1)) =
      (if X + 1 < Nx then [(X * Ny + Y + 1, X * Ny + Y + 1 + Ny)] else []) ++
      (if Ny > 1 then
        (if (X + 1 < Nx ∨ Y + 1 < Ny) ∧ (Y + 1 < Ny ∨ yper = true) then [(X * Ny + Y + 1, X * Ny + Y + 1 + 1)] else []) ++
        (if yper = true ∧ Y = 0 then [(X * Ny + Y + 1, X * Ny + Y + 1 + Ny - 1)] else []) ++
        (if X + 1 < Nx ∧ Y + 1 < Ny then [(X * Ny + Y + 1, X * Ny + Y + 1 + Ny + 1)] else [])
      else []) := by
  obtain ⟨_, h1, h2⟩ := coords_of hx hy
  have hlast : X * Ny + Y + 1 + 1 ≤ Nx * Ny ↔ (X + 1 < Nx ∨ Y + 1 < Ny) := by
    constructor
    · intro h
      by_contra hc
      have hX : Nx = X + 1 := by omega
      rw [hX, Nat.add_mul] at h; omega
    · rintro (h | h)
      · have := Nat.mul_le_mul_right Ny (show X + 2 ≤ Nx by omega)
        rw [Nat.add_mul] at this; omega
      · have := Nat.mul_le_mul_right Ny (show X + 1 ≤ Nx by omega)
        rw [Nat.add_mul] at this; omega
  simp only [triAt, Nat.add_sub_cancel, h1, h2, Nat.add_eq_right, pairs, hlast]
  split_ifs <;> simp_all

theorem tri_mem {Nx Ny : Nat} (per : Bool) (a b : Nat) :
    (a, b) ∈ pairs ((List.range (Nx * Ny)).flatMap fun i => triAt Nx Ny (per && decide (Ny > 2)) (i + 1)) ↔
      IsBond Nx Ny (triStep Ny per) a b := by
  rw [pairs_flatMap, List.mem_flatMap]
  have key : ∀ X Y, X < Nx → Y < Ny → ((a, b) ∈ pairs (triAt Nx Ny (per && decide (Ny > 2)) (X * Ny + Y + 1)) ↔
      a = X * Ny + Y + 1 ∧ ((X + 1 < Nx ∧ b = X * Ny + Y + 1 + Ny) ∨ (Y + 1 < Ny ∧ b = X * Ny + Y + 2) ∨
        (per = true ∧ 2 < Ny ∧ Y = 0 ∧ b = X * Ny + Y + Ny) ∨
        (X + 1 < Nx ∧ Y + 1 < Ny ∧ b = X * Ny + Y + Ny + 2) ∨
        (per = true ∧ 2 < Ny ∧ X + 1 < Nx ∧ Y + 1 = Ny ∧ b = X * Ny + Y + 2))) := by
    intro X Y hX hY
    rw [triAt_pairs _ _ _ hX hY]
    cases per
    · simp only [Bool.false_and, Bool.false_eq_true, false_and, if_false]
      split_ifs <;> simp <;> first | omega | grind
    · simp only [Bool.true_and, decide_eq_true_eq, true_and]
      split_ifs <;> simp <;> omega
  constructor
  · rintro ⟨i, hi, hb⟩
    obtain ⟨X, Y, hX, hY, rfl, -, -⟩ := coords (List.mem_range.1 hi)
    obtain ⟨rfl, h⟩ := (key X Y hX hY).1 hb
    rcases h with ⟨h1, rfl⟩ | ⟨h1, rfl⟩ | ⟨h0, h1, h2, rfl⟩ | ⟨h1, h2, rfl⟩ | ⟨h0, h1, h2, h3, rfl⟩
    · refine ⟨by omega, X + 1, Y + 1, X + 2, Y + 1, by omega, by omega, by omega, by omega, by omega, by omega, by omega,
        by omega, by simp [site]; omega, ?_, Or.inl (Or.inl (Or.inl ⟨rfl, rfl⟩))⟩
      simp only [site, show X + 2 - 1 = X + 1 by omega, Nat.add_mul, Nat.one_mul]; omega
    · exact ⟨by omega, X + 1, Y + 1, X + 1, Y + 2, by omega, by omega, by omega, by omega, by omega, by omega, by omega,
        by omega, by simp [site]; omega, by simp [site]; omega, Or.inl (Or.inl (Or.inr ⟨rfl, Or.inl rfl⟩))⟩
    · exact ⟨by omega, X + 1, 1, X + 1, Ny, by omega, by omega, by omega, by omega, by omega, by omega, by omega,
        by omega, by simp [site]; omega, by simp [site]; omega, Or.inr (Or.inl (Or.inr ⟨rfl, Or.inr ⟨h0, h1, rfl, rfl⟩⟩))⟩
    · refine ⟨by omega, X + 1, Y + 1, X + 2, Y + 2, by omega, by omega, by omega, by omega, by omega, by omega, by omega,
        by omega, by simp [site]; omega, ?_, Or.inl (Or.inr ⟨rfl, Or.inl rfl⟩)⟩
      simp only [site, show X + 2 - 1 = X + 1 by omega, Nat.add_mul, Nat.one_mul]; omega
    · refine ⟨by omega, X + 1, Y + 1, X + 2, 1, by omega, by omega, by omega, by omega, by omega, by omega, by omega,
        by omega, by simp [site]; omega, ?_, Or.inl (Or.inr ⟨rfl, Or.inr ⟨h0, h1, h3, rfl⟩⟩)⟩
      simp only [site, show X + 2 - 1 = X + 1 by omega, Nat.add_mul, Nat.one_mul]; omega
  · rintro ⟨hab, x, y, x', y', hx1, hx2, hy1, hy2, hx1', hx2', hy1', hy2', ha, hb, hadj⟩
    obtain ⟨X, rfl⟩ : ∃ X, x = X + 1 := ⟨x - 1, by omega⟩
    obtain ⟨Y, rfl⟩ : ∃ Y, y = Y + 1 := ⟨y - 1, by omega⟩
    obtain ⟨X', rfl⟩ : ∃ X, x' = X + 1 := ⟨x' - 1, by omega⟩
    obtain ⟨Y', rfl⟩ : ∃ Y, y' = Y + 1 := ⟨y' - 1, by omega⟩
    simp only [site, Nat.add_sub_cancel] at ha hb
    refine ⟨X * Ny + Y, List.mem_range.2 (coords_of (by omega) (by omega)).1, (key X Y (by omega) (by omega)).2 ⟨by omega, ?_⟩⟩
    rcases hadj with (((⟨e1, e2⟩ | ⟨e1, e2 | ⟨e2, e3, e4, e5⟩⟩)) | ⟨e1, e2 | ⟨e2, e3, e4, e5⟩⟩) |
      (((⟨e1, e2⟩ | ⟨e1, e2 | ⟨e2, e3, e4, e5⟩⟩)) | ⟨e1, e2 | ⟨e2, e3, e4, e5⟩⟩)
    · obtain rfl : X' = X + 1 := by omega
      rw [Nat.add_mul] at hb; omega
    · obtain rfl : X' = X := by omega
      omega
    · obtain rfl : X' = X := by omega
      omega
    · obtain rfl : X' = X + 1 := by omega
      rw [Nat.add_mul] at hb; omega
    · obtain rfl : X' = X + 1 := by omega
      rw [Nat.add_mul] at hb
      exact Or.inr (Or.inr (Or.inr (Or.inr ⟨e2, e3, by omega, by omega, by omega⟩)))
    · obtain rfl : X = X' + 1 := by omega
      rw [Nat.add_mul] at ha; omega
    · obtain rfl : X = X' := by omega
      omega
    · obtain rfl : X = X' := by omega
      exact Or.inr (Or.inr (Or.inl ⟨e2, e3, by omega, by omega⟩))
    · obtain rfl : X = X' + 1 := by omega
      rw [Nat.add_mul] at ha; omega
    · obtain rfl : X = X' + 1 := by omega
      rw [Nat.add_mul] at ha; omega

theorem tri_nodup {Nx Ny : Nat} (yper : Bool) (hp : yper = true → 2 < Ny) :
    (pairs ((List.range (Nx * Ny)).flatMap fun i => triAt Nx Ny yper (i + 1))).Nodup := by
  rw [pairs_flatMap]
  apply nodup_sites
  · intro i hi b hb
    simp only [pairs, triAt, List.mem_map] at hb
    grind
  · intro i hi
    obtain ⟨X, Y, hX, hY, rfl, -, -⟩ := coords hi
    rw [triAt_pairs _ _ _ hX hY]
    split_ifs with h1 h2 h3 h4 <;> simp <;> (try (have := hp (by tauto))) <;> (try omega)

theorem sum_or (n m c : Nat) (b : Prop) [Decidable b] (hm : 1 ≤ m) : ((List.range m).map fun y =>
    if (b ∨ y + 1 < m) ∧ (y + 1 < m ∨ n = 1) then c else 0).sum = ((m - 1) + if b ∧ n = 1 then 1 else 0) * c := by
  obtain ⟨k, rfl⟩ : ∃ k, m = k + 1 := ⟨m - 1, by omega⟩
  rw [List.range_succ, List.map_append, List.sum_append]
  have : ∀ y ∈ List.range k, (if (b ∨ y + 1 < k + 1) ∧ (y + 1 < k + 1 ∨ n = 1) then c else 0) = c := by
    intro y hy
    have := List.mem_range.1 hy
    rw [if_pos]
    exact ⟨Or.inr (by omega), Or.inl (by omega)⟩
  rw [List.map_congr_left this, sum_const]
  by_cases h : b ∧ n = 1
  · rw [if_pos h]; simp [h.1, h.2]; ring
  · rw [if_neg h]; simp; tauto

theorem tri_count {Nx Ny : Nat} (hx : 1 ≤ Nx) (hy : 1 ≤ Ny) (yper : Bool) (hp : yper = true → 2 < Ny) :
    (((List.range (Nx * Ny)).flatMap fun i => triAt Nx Ny yper (i + 1)).length : Int) =
      3 * (Nx * Ny : Nat) - 2 * Ny + (if yper then 0 else -2 * (Nx : Int) + 1) := by
  have hlen : ((List.range (Nx * Ny)).flatMap fun i => triAt Nx Ny yper (i + 1)).length =
      (Nx - 1) * (Ny + (Ny - 1) + if yper then 1 else 0) + (Nx * (Ny - 1 + if yper then 1 else 0)) := by
    rw [List.length_flatMap, sum_grid]
    have : ∀ x ∈ List.range Nx, ((List.range Ny).map fun y => (triAt Nx Ny yper (x * Ny + y + 1)).length).sum =
        (if x + 1 < Nx then (Ny + (Ny - 1) + if yper then 1 else 0) else 0) + ((Ny - 1) + if yper then 1 else 0) := by
      intro x hxx
      have hx' := List.mem_range.1 hxx
      have : ∀ y ∈ List.range Ny, (triAt Nx Ny yper (x * Ny + y + 1)).length =
          (if x + 1 < Nx then 1 else 0) +
            ((if (x + 1 < Nx ∨ y + 1 < Ny) ∧ (y + 1 < Ny ∨ yper.toNat = 1) then 1 else 0) +
            ((if yper = true ∧ y = 0 then 1 else 0) + if x + 1 < Nx ∧ y + 1 < Ny then 1 else 0)) := by
        intro y hyy
        have hy' := List.mem_range.1 hyy
        have := congrArg List.length (triAt_pairs Nx Ny yper hx' hy')
        rw [pairs, List.length_map] at this
        rw [this]
        have hb : yper = true ↔ yper.toNat = 1 := by cases yper <;> simp
        by_cases h1 : Ny > 1
        · simp only [h1, if_true, hb, List.length_append, List.length_cons, List.length_nil, apply_ite List.length]
          grind
        · have hf : yper = false := by
            cases h : yper
            · rfl
            · have := hp h; omega
          have h3 : ¬ y + 1 < Ny := by omega
          simp only [h1, hf, h3, if_false]
          split_ifs <;> simp_all
      rw [List.map_congr_left this, sum_add, sum_add, sum_add, sum_const, sum_or _ _ _ _ hy, sum_ite_and, sum_zero_eq,
        sum_ite_and, sum_lt]
      cases yper <;> simp <;> split_ifs <;> omega
    rw [List.map_congr_left this, sum_add, sum_const, sum_lt]
    simp
  rw [hlen]
  obtain ⟨a, rfl⟩ : ∃ a, Nx = a + 1 := ⟨Nx - 1, by omega⟩
  obtain ⟨b, rfl⟩ : ∃ b, Ny = b + 1 := ⟨Ny - 1, by omega⟩
  cases yper <;> simp <;> ring

/-! ## C53 -/

theorem per_ok (per : Bool) (Ny : Nat) : (per && decide (Ny > 2)) = true → 2 < Ny := by
  intro h; simp at h; exact h.2

/-- **C53, square lattice.** For positive sizes the generator returns a list of bonds (the count check
passes) that contains each nearest-neighbour pair of the `Nx` by `Ny` lattice exactly once, in ascending
order of sites, and nothing else; periodic in `y` if asked for and `Ny > 2`. -/
theorem C53_square {Nx Ny : Nat} (hx : 1 ≤ Nx) (hy : 1 ≤ Ny) (per : Bool) :
    ∃ l, square Nx Ny per = .ok l ∧ (pairs l).Nodup ∧
      ∀ a b, (a, b) ∈ pairs l ↔ IsBond Nx Ny (squareStep Ny per) a b := by
  have hc := square_count hx hy (per && decide (Ny > 2)) (per_ok per Ny)
  refine ⟨_, ?_, square_nodup (Nx := Nx) _ (per_ok per Ny), square_mem per⟩
  rw [square]
  dsimp only
  rw [if_neg (by rw [← hc]; omega), if_neg (by rw [hc]; simp)]

/-- **C53, triangular lattice.** Likewise for the triangular lattice. -/
theorem C53_triangular {Nx Ny : Nat} (hx : 1 ≤ Nx) (hy : 1 ≤ Ny) (per : Bool) :
    ∃ l, triangular Nx Ny per = .ok l ∧ (pairs l).Nodup ∧
      ∀ a b, (a, b) ∈ pairs l ↔ IsBond Nx Ny (triStep Ny per) a b := by
  have hc := tri_count hx hy (per && decide (Ny > 2)) (per_ok per Ny)
  refine ⟨_, ?_, tri_nodup (Nx := Nx) _ (per_ok per Ny), tri_mem per⟩
  rw [triangular]
  dsimp only
  rw [if_neg (by rw [← hc]; omega), if_neg (by rw [hc]; simp)]

/-! ### Square lattice with second neighbours -/

/-- The pairs of sites of the bonds of type `t`. -/
def pairsOf (t : Nat) (l : List Bond) : List (Nat × Nat) := pairs (l.filter fun b => b.type = t)

theorem next_first (Nx Ny : Nat) (yper : Bool) (n : Nat) :
    pairsOf 1 (nextAt Nx Ny yper n) = pairs (squareAt Nx Ny yper n) := by
  simp only [pairsOf, nextAt, squareAt, pairs]
  split_ifs <;> simp

theorem next_second (Nx Ny : Nat) (yper : Bool) {X Y : Nat} (hx : X < Nx) (hy : Y < Ny) :
    pairsOf 2 (nextAt Nx Ny yper (X * Ny + Y + 1)) =
      if X + 1 < Nx ∧ Ny > 1 then
        (if Y + 1 < Ny then [(X * Ny + Y + 1, X * Ny + Y + 1 + Ny + 1)] else []) ++
        (if 0 < Y then [(X * Ny + Y + 1, X * Ny + Y + 1 + Ny - 1)] else []) ++
        (if yper = true ∧ Y + 1 = Ny then [(X * Ny + Y + 1, X * Ny + Y + 1 + 1)] else []) ++
        (if yper = true ∧ Y = 0 then [(X * Ny + Y + 1, X * Ny + Y + 1 + 2 * Ny - 1)] else [])
      else [] := by
  obtain ⟨_, h1, h2⟩ := coords_of hx hy
  simp only [nextAt, Nat.add_sub_cancel, h1, h2, Nat.add_eq_right, pairs, pairsOf, gt_iff_lt, Nat.lt_add_left_iff_pos]
  split_ifs <;> simp

theorem pairsOf_flatMap (t : Nat) (f : Nat → List Bond) (l : List Nat) :
    pairsOf t (l.flatMap f) = l.flatMap fun i => pairsOf t (f i) := by
  induction l with
  | nil => rfl
  | cons a l ih => simp only [List.flatMap_cons, ← ih]; simp [pairsOf, pairs]

theorem diag_mem {Nx Ny : Nat} (per : Bool) (a b : Nat) :
    (a, b) ∈ pairsOf 2 (squareNext Nx Ny per) ↔ IsBond Nx Ny (diagStep Ny per) a b := by
  rw [squareNext, pairsOf_flatMap, List.mem_flatMap]
  have key : ∀ X Y, X < Nx → Y < Ny → ((a, b) ∈ pairsOf 2 (nextAt Nx Ny (per && decide (Ny > 2)) (X * Ny + Y + 1)) ↔
      a = X * Ny + Y + 1 ∧ X + 1 < Nx ∧ ((Y + 1 < Ny ∧ b = X * Ny + Y + Ny + 2) ∨ (0 < Y ∧ b = X * Ny + Y + Ny) ∨
        (per = true ∧ 2 < Ny ∧ Y + 1 = Ny ∧ b = X * Ny + Y + 2) ∨
        (per = true ∧ 2 < Ny ∧ Y = 0 ∧ b = X * Ny + Y + 2 * Ny))) := by
    intro X Y hX hY
    rw [next_second _ _ _ hX hY]
    cases per
    · simp only [Bool.false_and, Bool.false_eq_true, false_and, if_false]
      split_ifs <;> simp <;> omega
    · simp only [Bool.true_and, decide_eq_true_eq, true_and]
      split_ifs <;> simp <;> omega
  constructor
  · rintro ⟨i, hi, hb⟩
    obtain ⟨X, Y, hX, hY, rfl, -, -⟩ := coords (List.mem_range.1 hi)
    obtain ⟨rfl, hX2, h⟩ := (key X Y hX hY).1 hb
    rcases h with ⟨h1, rfl⟩ | ⟨h1, rfl⟩ | ⟨h0, h1, h2, rfl⟩ | ⟨h0, h1, h2, rfl⟩
    · refine ⟨by omega, X + 1, Y + 1, X + 2, Y + 2, by omega, by omega, by omega, by omega, by omega, by omega, by omega,
        by omega, by simp [site]; omega, ?_, Or.inl ⟨rfl, Or.inl (Or.inl rfl)⟩⟩
      simp only [site, show X + 2 - 1 = X + 1 by omega, Nat.add_mul, Nat.one_mul]; omega
    · refine ⟨by omega, X + 1, Y + 1, X + 2, Y, by omega, by omega, by omega, by omega, by omega, by omega, by omega,
        by omega, by simp [site]; omega, ?_, Or.inl ⟨rfl, Or.inr (Or.inl rfl)⟩⟩
      simp only [site, show X + 2 - 1 = X + 1 by omega, Nat.add_mul, Nat.one_mul]; omega
    · refine ⟨by omega, X + 1, Y + 1, X + 2, 1, by omega, by omega, by omega, by omega, by omega, by omega, by omega,
        by omega, by simp [site]; omega, ?_, Or.inl ⟨rfl, Or.inl (Or.inr ⟨h0, h1, h2, rfl⟩)⟩⟩
      simp only [site, show X + 2 - 1 = X + 1 by omega, Nat.add_mul, Nat.one_mul]; omega
    · refine ⟨by omega, X + 1, 1, X + 2, Ny, by omega, by omega, by omega, by omega, by omega, by omega, by omega,
        by omega, by simp [site]; omega, ?_, Or.inl ⟨rfl, Or.inr (Or.inr ⟨h0, h1, rfl, rfl⟩)⟩⟩
      simp only [site, show X + 2 - 1 = X + 1 by omega, Nat.add_mul, Nat.one_mul]; omega
  · rintro ⟨hab, x, y, x', y', hx1, hx2, hy1, hy2, hx1', hx2', hy1', hy2', ha, hb, hadj⟩
    obtain ⟨X, rfl⟩ : ∃ X, x = X + 1 := ⟨x - 1, by omega⟩
    obtain ⟨Y, rfl⟩ : ∃ Y, y = Y + 1 := ⟨y - 1, by omega⟩
    obtain ⟨X', rfl⟩ : ∃ X, x' = X + 1 := ⟨x' - 1, by omega⟩
    obtain ⟨Y', rfl⟩ : ∃ Y, y' = Y + 1 := ⟨y' - 1, by omega⟩
    simp only [site, Nat.add_sub_cancel] at ha hb
    refine ⟨X * Ny + Y, List.mem_range.2 (coords_of (by omega) (by omega)).1, (key X Y (by omega) (by omega)).2 ⟨by omega, ?_⟩⟩
    rcases hadj with ⟨e1, (e2 | ⟨e2, e3, e4, e5⟩) | (e2 | ⟨e2, e3, e4, e5⟩)⟩ | ⟨e1, _⟩
    · obtain rfl : X' = X + 1 := by omega
      rw [Nat.add_mul] at hb
      exact ⟨by omega, Or.inl ⟨by omega, by omega⟩⟩
    · obtain rfl : X' = X + 1 := by omega
      rw [Nat.add_mul] at hb
      exact ⟨by omega, Or.inr (Or.inr (Or.inl ⟨e2, e3, by omega, by omega⟩))⟩
    · obtain rfl : X' = X + 1 := by omega
      rw [Nat.add_mul] at hb
      exact ⟨by omega, Or.inr (Or.inl ⟨by omega, by omega⟩)⟩
    · obtain rfl : X' = X + 1 := by omega
      rw [Nat.add_mul] at hb
      exact ⟨by omega, Or.inr (Or.inr (Or.inr ⟨e2, e3, by omega, by omega⟩))⟩
    · obtain rfl : X = X' + 1 := by omega
      rw [Nat.add_mul] at ha; omega

/-- **C53, second neighbours.** `squareNextNeighbor` lists each nearest-neighbour pair once with type 1,
each diagonal pair once with type 2, and nothing else. -/
theorem C53_next (Nx Ny : Nat) (per : Bool) :
    (∀ b ∈ squareNext Nx Ny per, b.type = 1 ∨ b.type = 2) ∧
    (pairsOf 1 (squareNext Nx Ny per)).Nodup ∧ (pairsOf 2 (squareNext Nx Ny per)).Nodup ∧
    (∀ a b, (a, b) ∈ pairsOf 1 (squareNext Nx Ny per) ↔ IsBond Nx Ny (squareStep Ny per) a b) ∧
    ∀ a b, (a, b) ∈ pairsOf 2 (squareNext Nx Ny per) ↔ IsBond Nx Ny (diagStep Ny per) a b := by
  have e1 : pairsOf 1 (squareNext Nx Ny per) =
      pairs ((List.range (Nx * Ny)).flatMap fun i => squareAt Nx Ny (per && decide (Ny > 2)) (i + 1)) := by
    rw [squareNext, pairsOf_flatMap, pairs_flatMap]
    simp only [next_first]
  refine ⟨?_, e1 ▸ square_nodup _ (per_ok per Ny), ?_, fun a b => e1 ▸ square_mem per a b, diag_mem per⟩
  · intro b hb
    rw [squareNext, List.mem_flatMap] at hb
    obtain ⟨i, _, hb⟩ := hb
    simp only [nextAt] at hb
    grind
  · rw [squareNext, pairsOf_flatMap]
    have hp := per_ok per Ny
    generalize (per && decide (Ny > 2)) = yper at hp ⊢
    apply nodup_sites
    · intro i hi b hb
      simp only [pairs, pairsOf, nextAt, List.mem_map, List.mem_filter] at hb
      grind
    · intro i hi
      obtain ⟨X, Y, hX, hY, rfl, -, -⟩ := coords hi
      rw [next_second _ _ _ hX hY]
      split_ifs with h1 h2 h3 h4 <;> simp <;> (try (have := hp (by tauto))) <;> (try omega)

/-- **Empty lattices throw.** With no columns or no rows (not both) the bond count is negative. -/
theorem C53_empty {n : Nat} (h : 1 ≤ n) (per : Bool) : square 0 n per = .throw ∧ square n 0 per = .throw := by
  constructor
  · rw [square]; dsimp only; rw [if_pos]; simp; omega
  · rw [square]; dsimp only; rw [if_pos]; simp; omega

/-- **The coordinates of periodic bonds are wrong**: the bond between `(1,1)` and `(1,3)` of a periodic
3-row lattice records `y2 = 4`, which is `1` around the cylinder, not `3`. -/
theorem C53_coords_counterexample : ∃ l, square 1 3 true = .ok l ∧
    (⟨1, 3, 1, 1, 1, 4, 0⟩ : Bond) ∈ l ∧ site 3 1 3 = 3 :=
  ⟨[⟨1, 2, 1, 1, 1, 2, 0⟩, ⟨1, 3, 1, 1, 1, 4, 0⟩, ⟨2, 3, 1, 2, 1, 3, 0⟩], by decide +kernel⟩

/-! Examples -/

example : (∃ l, triangular 2 3 true = .ok l ∧
    pairs l = [(1, 4), (1, 2), (1, 3), (1, 5), (2, 5), (2, 3), (2, 6), (3, 6), (3, 4), (4, 5), (4, 6), (5, 6)]) :=
  ⟨_, rfl, by decide +kernel⟩
example : pairsOf 2 (squareNext 2 2 false) = [(1, 4), (2, 3)] := by decide +kernel

end Verif.Lattice
