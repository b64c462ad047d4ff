import Verif.Base
import Mathlib.Data.List.Nodup
import Mathlib.Tactic.Ring
import Mathlib.Tactic.Linarith
import Mathlib.Algebra.BigOperators.Group.List.Basic

/-!
# Lattice graphs (`itensor/mps/lattice/`)
-/

namespace Verif.Lattice

/-- `LatticeBond`: the two sites, the coordinates and the type. latticebond.h:28-74. Coordinates of the
triangular lattice are not set in the code (NaN); the model gives zeros. -/
structure Bond where
  s1 : Nat
  s2 : Nat
  x1 : Nat := 0
  y1 : Nat := 0
  x2 : Nat := 0
  y2 : Nat := 0
  type : Nat := 0
deriving DecidableEq

/-- The bonds of site `n` on the square lattice. square.h:37-49 -/
def squareAt (Nx Ny : Nat) (yper : Bool) (n : Nat) : List Bond :=
  let x := (n - 1) / Ny + 1
  let y := (n - 1) % Ny + 1
  (if x < Nx then [⟨n, n + Ny, x, y, x + 1, y, 0⟩] else []) ++
  (if Ny > 1 then
    (if y < Ny then [⟨n, n + 1, x, y, x, y + 1, 0⟩] else []) ++
    (if yper = true ∧ y = 1 then [⟨n, n + Ny - 1, x, y, x, y + Ny, 0⟩] else [])
  else [])

/-- `squareLattice`. square.h:23-53. Negative sizes are not modelled; a negative `Nbond` throws in
`reserve`. -/
def square (Nx Ny : Nat) (yperiodic : Bool) : Res (List Bond) :=
  let yper := yperiodic && decide (Ny > 2)
  let N := Nx * Ny
  let Nbond : Int := 2 * N - Ny + (if yper then 0 else -(Nx : Int))
  if Nbond < 0 then .throw else
  let latt := (List.range N).flatMap fun i => squareAt Nx Ny yper (i + 1)
  if (latt.length : Int) ≠ Nbond then .throw else .ok latt

/-- The bonds of site `n` in `squareNextNeighbor`. square.h:67-102 -/
def nextAt (Nx Ny : Nat) (yper : Bool) (n : Nat) : List Bond :=
  let x := (n - 1) / Ny + 1
  let y := (n - 1) % Ny + 1
  (if x < Nx then [⟨n, n + Ny, x, y, x + 1, y, 1⟩] else []) ++
  (if Ny > 1 then
    (if y < Ny then [⟨n, n + 1, x, y, x, y + 1, 1⟩] else []) ++
    (if yper = true ∧ y = 1 then [⟨n, n + Ny - 1, x, y, x, y + Ny, 1⟩] else [])
  else []) ++
  (if x < Nx ∧ Ny > 1 then
    (if y < Ny then [⟨n, n + Ny + 1, x, y, x + 1, y + 1, 2⟩] else []) ++
    (if y > 1 then [⟨n, n + Ny - 1, x, y, x + 1, y - 1, 2⟩] else []) ++
    (if yper = true ∧ y = Ny then [⟨n, n + 1, x, Ny, x + 1, 1, 2⟩] else []) ++
    (if yper = true ∧ y = 1 then [⟨n, n + 2 * Ny - 1, x, 1, x + 1, Ny, 2⟩] else [])
  else [])

/-- `squareNextNeighbor`. square.h:55-105 -/
def squareNext (Nx Ny : Nat) (yperiodic : Bool) : List Bond :=
  (List.range (Nx * Ny)).flatMap fun i => nextAt Nx Ny (yperiodic && decide (Ny > 2)) (i + 1)

/-- The bonds of site `n` on the triangular lattice. triangular.h:38-57 -/
def triAt (Nx Ny : Nat) (yper : Bool) (n : Nat) : List Bond :=
  let x := (n - 1) / Ny + 1
  let y := (n - 1) % Ny + 1
  (if x < Nx then [{ s1 := n, s2 := n + Ny }] else []) ++
  (if Ny > 1 then
    (if n + 1 ≤ Nx * Ny ∧ (y < Ny ∨ yper = true) then [{ s1 := n, s2 := n + 1 }] else []) ++
    (if yper = true ∧ y = 1 then [{ s1 := n, s2 := n + Ny - 1 }] else []) ++
    (if x < Nx ∧ y < Ny then [{ s1 := n, s2 := n + Ny + 1 }] else [])
  else [])

/-- `triangularLattice`. triangular.h:23-63 -/
def triangular (Nx Ny : Nat) (yperiodic : Bool) : Res (List Bond) :=
  let yper := yperiodic && decide (Ny > 2)
  let N := Nx * Ny
  let Nbond : Int := 3 * N - 2 * Ny + (if yper then 0 else -2 * (Nx : Int) + 1)
  if Nbond < 0 then .throw else
  let latt := (List.range N).flatMap fun i => triAt Nx Ny yper (i + 1)
  if (latt.length : Int) ≠ Nbond then .throw else .ok latt

/-! ## Specification: neighbours in terms of coordinates -/

/-- The site numbers count along columns: `(x, y)`, one-based, is site `(x-1) Ny + y`. -/
def site (Ny x y : Nat) : Nat := (x - 1) * Ny + y

/-- `y'` is one above `y`, around the cylinder if periodic. -/
def Up (Ny : Nat) (per : Bool) (y y' : Nat) : Prop := y' = y + 1 ∨ (per = true ∧ 2 < Ny ∧ y = Ny ∧ y' = 1)

/-- The bonds of a lattice with neighbour relation `adj`: pairs of site numbers in ascending order. -/
def IsBond (Nx Ny : Nat) (adj : Nat → Nat → Nat → Nat → Prop) (a b : Nat) : Prop :=
  a < b ∧ ∃ x y x' y', 1 ≤ x ∧ x ≤ Nx ∧ 1 ≤ y ∧ y ≤ Ny ∧ 1 ≤ x' ∧ x' ≤ Nx ∧ 1 ≤ y' ∧ y' ≤ Ny ∧
    a = site Ny x y ∧ b = site Ny x' y' ∧ (adj x y x' y' ∨ adj x' y' x y)

/-- Steps of the square lattice. -/
def squareStep (Ny : Nat) (per : Bool) (x y x' y' : Nat) : Prop :=
  (x' = x + 1 ∧ y' = y) ∨ (x' = x ∧ Up Ny per y y')

/-- Diagonal steps of the square lattice. -/
def diagStep (Ny : Nat) (per : Bool) (x y x' y' : Nat) : Prop :=
  x' = x + 1 ∧ (Up Ny per y y' ∨ Up Ny per y' y)

/-- Steps of the triangular lattice: the square steps and one diagonal. -/
def triStep (Ny : Nat) (per : Bool) (x y x' y' : Nat) : Prop :=
  squareStep Ny per x y x' y' ∨ (x' = x + 1 ∧ Up Ny per y y')

/-! ## Lemmas -/

/-- Coordinates of the `i`-th site, zero-based. -/
theorem coords {Nx Ny i : Nat} (h : i < Nx * Ny) :
    ∃ x y, x < Nx ∧ y < Ny ∧ i = x * Ny + y ∧ i / Ny = x ∧ i % Ny = y := by
  have hy : 0 < Ny := by
    rcases Nat.eq_zero_or_pos Ny with h0 | h0
    · rw [h0] at h; simp at h
    · exact h0
  refine ⟨i / Ny, i % Ny, ?_, Nat.mod_lt _ hy, ?_, rfl, rfl⟩
  · exact Nat.div_lt_of_lt_mul (by rw [Nat.mul_comm]; exact h)
  · rw [Nat.mul_comm]; exact (Nat.div_add_mod i Ny).symm

theorem coords_of {Nx Ny x y : Nat} (hx : x < Nx) (hy : y < Ny) :
    x * Ny + y < Nx * Ny ∧ (x * Ny + y) / Ny = x ∧ (x * Ny + y) % Ny = y := by
  refine ⟨?_, ?_, ?_⟩
  · calc x * Ny + y < x * Ny + Ny := by omega
      _ = (x + 1) * Ny := by ring
      _ ≤ Nx * Ny := Nat.mul_le_mul_right _ hx
  · rw [Nat.mul_comm, Nat.mul_add_div (by omega), Nat.div_eq_of_lt hy]; omega
  · rw [Nat.mul_comm, Nat.mul_add_mod, Nat.mod_eq_of_lt hy]

theorem sum_grid (f : Nat → Nat) (Ny : Nat) : ∀ Nx : Nat, ((List.range (Nx * Ny)).map f).sum =
    ((List.range Nx).map fun x => ((List.range Ny).map fun y => f (x * Ny + y)).sum).sum := by
  intro Nx
  induction Nx with
  | zero => simp
  | succ Nx ih =>
    rw [List.range_succ, List.map_append, List.sum_append, ← ih, Nat.add_mul, Nat.one_mul, List.range_add,
      List.map_append, List.sum_append, List.map_map]
    simp [Function.comp_def]

theorem sum_const (n c : Nat) : ((List.range n).map fun _ => c).sum = n * c := by
  simp

theorem sum_lt (n c : Nat) : ∀ m, ((List.range m).map fun x => if x + 1 < n then c else 0).sum = min m (n - 1) * c := by
  intro m
  induction m with
  | zero => simp
  | succ m ih =>
    rw [List.range_succ, List.map_append, List.sum_append, ih]
    simp only [List.map_cons, List.map_nil, List.sum_cons, List.sum_nil, Nat.add_zero]
    split_ifs with h
    · rw [show min m (n - 1) = m by omega, show min (m + 1) (n - 1) = m + 1 by omega]; ring
    · rw [show min (m + 1) (n - 1) = min m (n - 1) by omega]; omega

theorem sum_zero_eq (c : Nat) : ∀ m, ((List.range m).map fun y => if y = 0 then c else 0).sum = if m = 0 then 0 else c := by
  intro m
  induction m with
  | zero => simp
  | succ m ih =>
    rw [List.range_succ, List.map_append, List.sum_append, ih]
    by_cases h : m = 0 <;> simp [h]

theorem sum_add (f g : Nat → Nat) (l : List Nat) : (l.map fun x => f x + g x).sum = (l.map f).sum + (l.map g).sum := by
  induction l with
  | nil => rfl
  | cons a l ih => simp only [List.map_cons, List.sum_cons, ih]; omega

/-- A list of bonds collected site by site has no duplicates if each site's list has none and all its
bonds start at that site. -/
theorem nodup_sites {f : Nat → List (Nat × Nat)} {N : Nat} (h1 : ∀ i < N, ∀ b ∈ f i, b.1 = i + 1)
    (h2 : ∀ i < N, (f i).Nodup) : ((List.range N).flatMap f).Nodup := by
  rw [List.nodup_flatMap]
  refine ⟨fun i hi => h2 i (List.mem_range.1 hi), ?_⟩
  apply List.Pairwise.imp_of_mem _ (List.nodup_range (n := N))
  intro i j hi hj hne b hb hc
  have a := h1 i (List.mem_range.1 hi) b hb
  have c := h1 j (List.mem_range.1 hj) b hc
  omega

end Verif.Lattice
