import Verif.MPS.LocalMPOProps
import Mathlib.Algebra.BigOperators.Group.List.Basic
import Mathlib.Algebra.Order.Ring.Int
import Mathlib.Algebra.Module.Basic

/-!
# Sets of projected operators

`LocalMPOSet` (localmposet.h) and `LocalMPO_MPS` (localmpo_mps.h), and concrete cases for the theorems on `LocalMPO`.
-/

namespace Verif.LocalMPO

/-! ## Sums of operators -/

section
variable {X T K : Type*} [AddCommMonoid T] [AddCommMonoid K]

/-- A result for the first member, and `+=` for the others (`front()` of an empty vector is undefined):
`LocalMPOSet::product`, `deltaRho`, `diag` (localmposet.h:140-152, 166-188). `f` is the function of a member; addition of tensors is
that of a commutative monoid. -/
def setSum (f : X → Res T) : List X → Res T
  | [] => .ub
  | m :: ms => (f m).bind fun t => Res.foldM (fun acc n => (f n).bind fun u => .ok (acc + u)) t ms

/-- `LocalMPOSet::expect` (localmposet.h:154-164): two nested loops over the members; the inner variable hides the outer one. -/
def setExpect (f : X → Res K) (ms : List X) : Res K :=
  Res.foldM (fun acc _ => Res.foldM (fun acc n => (f n).bind fun u => .ok (acc + u)) acc ms) 0 ms

/-- `LocalMPO_MPS::product` (localmpo_mps.h:132-145): `h` is the product of `lmpo_`, `ps` those of `lmps_`, and `w` multiplication
by `weight_`. -/
def penaltyProduct {V : Type*} (h : V → Res T) (ps : List (V → Res T)) (w : T → T) (phi : V) : Res T :=
  (h phi).bind fun t => Res.foldM (fun acc p => (p phi).bind fun u => .ok (acc + w u)) t ps

/-- `LocalMPO_MPS::expect` (localmpo_mps.h:59-60): only of `lmpo_`. -/
def penaltyExpect {V : Type*} (h : V → Res K) (_ps : List (V → Res K)) (_w : K → K) (phi : V) : Res K := h phi

theorem foldM_add {f : X → Res T} {g : X → T} : ∀ (ms : List X) (t : T), (∀ m ∈ ms, f m = .ok (g m)) →
    Res.foldM (fun acc n => (f n).bind fun u => .ok (acc + u)) t ms = .ok (t + (ms.map g).sum) := by
  intro ms
  induction ms with
  | nil => intro t _; simp
  | cons m ms ih =>
    intro t h
    rw [Res.foldM_cons, h m (by simp)]
    simp only [Res.bind_ok]
    rw [ih _ fun x hx => h x (by simp [hx])]
    simp [add_assoc]

/-- C47. The result of a non-empty set is the sum of those of its members. -/
theorem C47_sum {f : X → Res T} {g : X → T} {ms : List X} (h : ∀ m ∈ ms, f m = .ok (g m)) (hne : ms ≠ []) :
    setSum f ms = .ok (ms.map g).sum := by
  cases ms with
  | nil => exact absurd rfl hne
  | cons m ms =>
    rw [setSum, h m (by simp)]
    simp only [Res.bind_ok]
    rw [foldM_add ms _ fun x hx => h x (by simp [hx])]
    simp

/-- C47. The product of an operator and weighted projectors is the sum. -/
theorem C47_penalty {V : Type*} {h : V → Res T} {ps : List (V → Res T)} {w : T → T} {phi : V} {a : T} {q : (V → Res T) → T}
    (ha : h phi = .ok a) (hq : ∀ p ∈ ps, p phi = .ok (q p)) :
    penaltyProduct h ps w phi = .ok (a + (ps.map fun p => w (q p)).sum) := by
  unfold penaltyProduct
  rw [ha]
  simp only [Res.bind_ok]
  have hb : ∀ (acc : T) (p : V → Res T), ((p phi).bind fun u => Res.ok (acc + w u)) =
      ((p phi).map w).bind fun u => .ok (acc + u) := by
    intro acc p
    cases p phi <;> rfl
  simp only [hb]
  exact foldM_add (f := fun p => (p phi).map w) (g := fun p => w (q p)) ps a fun p hp => by simp [hq p hp]

/-- What `expect` of a set is: the sum of those of the members, as many times as there are members. -/
theorem setExpect_eq {f : X → Res K} {g : X → K} {ms : List X} (h : ∀ m ∈ ms, f m = .ok (g m)) :
    setExpect f ms = .ok (ms.length • (ms.map g).sum) := by
  unfold setExpect
  simp only [foldM_add ms _ h]
  have : ∀ (l : List X) (t : K), Res.foldM (fun acc _ => Res.ok (acc + (ms.map g).sum)) t l = .ok (t + l.length • (ms.map g).sum) := by
    intro l
    induction l with
    | nil => intro t; simp
    | cons x l ih =>
      intro t
      rw [Res.foldM_cons]
      simp only [Res.bind_ok]
      rw [ih, List.length_cons, add_smul, one_smul, add_assoc, add_comm (ms.map g).sum]
  rw [this, zero_add]

end

/-- C47 fails for `expect`: with two or more members it is not the sum unless the sum is zero. -/
theorem C47_expect_counterexample {X : Type*} {f : X → Res Int} {g : X → Int} {ms : List X} (h : ∀ m ∈ ms, f m = .ok (g m))
    (h2 : 2 ≤ ms.length) (hs : (ms.map g).sum ≠ 0) : setExpect f ms ≠ .ok (ms.map g).sum := by
  rw [setExpect_eq h]
  intro e
  have e : ms.length • (ms.map g).sum = (ms.map g).sum := by injection e
  rw [nsmul_eq_mul] at e
  have : ((ms.length : Int) - 1) * (ms.map g).sum = 0 := by rw [sub_mul, e]; ring
  rcases mul_eq_zero.mp this with h | h
  · omega
  · exact hs h

/-- The case of two operators with expectation values 3 and 4. -/
example : setExpect (fun n : Int => .ok n) [3, 4] = .ok 14 := by decide
example : setSum (fun n : Int => .ok n) [3, 4, 5] = .ok 12 := by decide
example : penaltyProduct (fun v : Int => .ok (2 * v)) [fun v => .ok v, fun v => .ok (-v)] (fun x => 10 * x) 7 = .ok 14 := by decide

/-- C47 fails for `expect` with projectors, which is the expectation value of the operator without them: here the product is
`2*phi + 10*phi`, the expectation value that of `2*phi`. -/
theorem C47_penalty_counterexample :
    penaltyExpect (fun v : Int => .ok (2 * v * v)) [fun v => .ok (v * v)] (fun x => 10 * x) 3 = .ok 18 ∧
    (penaltyProduct (fun v : Int => .ok (2 * v)) [fun v => .ok v] (fun x => 10 * x) 3).map (fun t => t * 3) = .ok 108 := by decide

/-! ## Concrete cases for `LocalMPO` -/

/-- Environments that tell which sites, with which tensors, they were made of. -/
def rec' (n : Int) (e : Option (List (Int × Nat))) (a : Nat) : List (Int × Nat) := (n, a) :: e.getD []

/-- Positions 1, 2, 3, then 1, of a chain of 5 sites, with the window changed before each step. -/
def walk (s : State (List (Int × Nat))) : Res (State (List (Int × Nat))) :=
  (position rec' 1 (fun _ => 0) s).bind fun s => (position rec' 2 (Function.update (fun _ => 0) 1 7) s).bind fun s =>
    (position rec' 3 (Function.update (Function.update (fun _ => 0) 1 7) 2 8) s).bind fun s =>
      position rec' 1 (Function.update (Function.update (fun _ => 0) 1 7) 2 8) s

/-- The calculation exists, and ends with the right environments. -/
example : ∃ s, walk (make 5 none none 2 true) = .ok s ∧
    Calc rec' 5 none none 2 true s (Function.update (Function.update (fun _ => 0) 1 7) 2 8) (some 1) := by
  have c0 := Calc.init (absorb := rec') (N := 5) (bL := none) (bR := none) (nc := 2) (op := true) (fun _ => 0)
  obtain ⟨s1, e1⟩ := (C44_position (by decide)).1 _ c0 1 (by decide) (by decide)
  have c1 := (c0.pos 1 (by decide) (by decide) e1).change (Function.update (fun _ => 0) 1 7) (by
    rintro b hb i hi
    cases hb
    rw [Function.update_of_ne (by omega)])
  obtain ⟨s2, e2⟩ := (C44_position (by decide)).1 _ c1 2 (by decide) (by decide)
  have c2 := (c1.pos 2 (by decide) (by decide) e2).change (Function.update (Function.update (fun _ => 0) 1 7) 2 8) (by
    rintro b hb i hi
    cases hb
    rw [Function.update_of_ne (by omega)])
  obtain ⟨s3, e3⟩ := (C44_position (by decide)).1 _ c2 3 (by decide) (by decide)
  have c3 := c2.pos 3 (by decide) (by decide) e3
  obtain ⟨s4, e4⟩ := (C44_position (by decide)).1 _ c3 1 (by decide) (by decide)
  refine ⟨s4, ?_, c3.pos 1 (by decide) (by decide) e4⟩
  unfold walk
  rw [e1, Res.bind_ok, e2, Res.bind_ok, e3, Res.bind_ok, e4]

example : (walk (make 5 none none 2 true)).map (fun s => (getL s, getR s)) = .ok (none, some [(3, 0), (4, 0), (5, 0)]) := by
  decide +kernel

/-- The same on disk. -/
example : ((doWrite (make 5 none none 2 true) true).bind walk).map (fun s => (getL s, getR s)) =
    .ok (none, some [(3, 0), (4, 0), (5, 0)]) := by decide +kernel

example : CalcD rec' 5 2 (make 5 none none 2 true) (fun _ => 0) none := .init _

/-- C45 fails for a step of `nc+1` bonds: on disk the left environment is lost. -/
theorem C45_step_counterexample :
    ((position rec' 1 (fun _ => 0) (make 6 none none 2 true)).bind fun s => position rec' 4 (fun _ => 0) s).map
        (fun s => (getL s, getR s)) = .ok (some [(3, 0), (2, 0), (1, 0)], some [(6, 0)]) ∧
    ((doWrite (make 6 none none 2 true) true).bind fun s => (position rec' 1 (fun _ => 0) s).bind fun s =>
      position rec' 4 (fun _ => 0) s).map (fun s => (getL s, getR s)) = .ok (none, some [(6, 0)]) := by
  constructor <;> decide +kernel

/-- C45 fails with boundary tensors: they are dropped. -/
theorem C45_boundary_counterexample :
    (position rec' 1 (fun _ => 0) (make 3 (some [(0, 1)]) (some [(4, 1)]) 2 true)).map (fun s => (getL s, getR s)) =
      .ok (some [(0, 1)], some [(3, 0), (4, 1)]) ∧
    ((doWrite (make 3 (some [(0, 1)]) (some [(4, 1)]) 2 true) true).bind fun s => position rec' 1 (fun _ => 0) s).map
      (fun s => (getL s, getR s)) = .ok (none, some [(3, 0), (4, 1)]) := by
  constructor <;> decide +kernel

/-- C45 fails when writing is turned off again: environments in files are not read back. -/
theorem C45_off_counterexample :
    ((doWrite (make 5 none none 2 true) true).bind fun s => (position rec' 1 (fun _ => 0) s).bind fun s =>
      (doWrite s false).bind fun s => position rec' 2 (fun _ => 0) s).map (fun s => (getL s, getR s)) =
      .ok (some [(1, 0)], none) := by decide +kernel

/-- C46, a case: chain of 5 sites, from position 2 to position 3. -/
example : (((position rec' 2 (fun _ => 0) (make 5 none none 2 true))).bind fun s => shiftLeft rec' 2 9 s).map
    (fun s => (getL s, getR s)) = .ok (some [(2, 9), (1, 0)], some [(5, 0)]) := by decide +kernel
example : (((position rec' 2 (fun _ => 0) (make 5 none none 2 true))).bind fun s => shiftRight rec' 3 9 s).map getL = .throw := by
  decide +kernel

end Verif.LocalMPO
