import Verif.Decomp.PolarC104

/-!
# C104: examples, and a tensor for which `polar` fails
-/

namespace Verif.Factor.Ex

open Verif.Tensor Verif.Index Verif.Index.IndexSet Verif.Net Finset
open Function (update)

def s : Index := (DiagEx.ix 1 2).prime 1
def t : Index := (DiagEx.ix 2 2).prime 1
def u : Index := (DiagEx.ix 3 2).prime 1
def v : Index := (DiagEx.ix 4 2).prime 1

/-- `U(s,u)`: an exchange; `S = (4,9)`; `V(v,t)`: a rotation by a right angle. -/
def U : DS Int := ⟨[s, u], 4, fun a => if a = 1 ∨ a = 2 then 1 else 0⟩
def S : DG Int := ⟨[u, v], [4, 9], 0, 2⟩
def V : DS Int := ⟨[v, t], 4, fun a => if a = 1 then 1 else if a = 2 then -1 else 0⟩

/-- The tensor. -/
def T (U V : DS Int) (σ : Key → Nat) : Int := ∑ J ∈ range 2, U.sem.val (update σ u.key J) * S.at' J * V.sem.val (update σ v.key J)

theorem two {P : Nat → Prop} (h0 : P 0) (h1 : P 1) : ∀ J < 2, P J := by
  intro J hJ
  match J, hJ with
  | 0, _ => exact h0
  | 1, _ => exact h1

theorem C104_svd : IsSvd (fun _ => 2) (RingHom.id Int) (T U V) u.key v.key [s.key] [t.key] U S V where
  okU := ⟨⟨by decide, by decide, by decide, by decide⟩, rfl⟩
  okS := ⟨⟨by decide, by decide, by decide, by decide⟩, by decide, .inr ⟨u, by decide, rfl⟩, .inr rfl⟩
  okV := ⟨⟨by decide, by decide, by decide, by decide⟩, rfl⟩
  indsU := by decide
  indsS := rfl
  indsV := by decide
  nea := by decide
  neb := by decide
  nodup := by decide
  ne := by decide
  new := by decide
  lenU := rfl
  lenV := rfl
  val := fun _ _ => rfl
  isoU := by
    refine two (two ?_ ?_) (two ?_ ?_) <;> intro σ <;> simp [sumOver, sum_range_succ, DS.sem, U, rank, s, u, DiagEx.ix, Index.key, Index.prime, Verif.TagSet.TagSet.prime]
  isoV := by
    refine two (two ?_ ?_) (two ?_ ?_) <;> intro σ <;> simp [sumOver, sum_range_succ, DS.sem, V, rank, t, v, DiagEx.ix, Index.key, Index.prime, Verif.TagSet.TagSet.prime]

/-- The square root of 4 and 9. -/
def root (x : Int) : Int := if x = 4 then 2 else 3

example : ∃ A B : IT Int, factor 10 (fun _ => 77) (fun _ => 78) root U S V = some (.ok (A, B)) ∧
    ∀ σ : Key → Nat, (∀ k ∈ [s.key, t.key], σ k < 2) → (mul (fun _ => 2) A.sem B.sem).val σ = T U V σ := by
  obtain ⟨A, B, h1, -, -, -, -, h2, -⟩ := C104_factor_partial C104_svd (f := root) (two (by decide +kernel) (by decide +kernel)) (two (by decide +kernel) (by decide +kernel)) (M := 4) (fuel := 10)
    (by decide) (by decide) (by decide) (by decide) (by decide) (fun _ => 77) (fun _ => 78)
  exact ⟨A, B, h1, h2⟩

/-- The indices (id, prime level) and elements of a result. -/
def cells (r : Run (IT Int × IT Int)) : Option (Res (List (List (Nat × Int) × List Int))) :=
  match r with
  | some (.ok (.dense A, .dense B)) => some (.ok [(A.is.map fun i => (i.id, i.plev), (List.range A.size).map fun (a : Nat) => A.mem a), (B.is.map fun i => (i.id, i.plev), (List.range B.size).map fun (a : Nat) => B.mem a)])
  | some .throw => some .throw
  | some .ub => some .ub
  | _ => none

example : cells (factor 10 (fun _ => 77) (fun _ => 78) root U S V) = some (.ok [([(1, 0), (3, 0)], [0, 2, 3, 0]), ([(2, 0), (3, 0)], [0, -2, 3, 0])]) := by decide +kernel
example : cells (polar 10 (fun _ => 77) (fun _ => 78) (RingHom.id Int) 1 U S V) = some (.ok [([(1, 0), (2, 1)], [1, 0, 0, -1]), ([(2, 1), (2, 0)], [9, 0, 0, 4])]) := by decide +kernel
example : cells (polar 10 (fun _ => 77) (fun _ => 78) (RingHom.id Int) 0 U S V) = some .throw := by decide +kernel

theorem C104_fresh (p : Int) (hp : p ≠ 0) : Fresh (fun _ => 2) p [s.key] [t.key] := by
  refine ⟨fun k hk => ?_, fun _ _ => rfl⟩
  simp only [List.mem_singleton] at hk
  subst hk
  constructor
  · intro h
    simp [kp, t, s, DiagEx.ix, Index.key, Index.prime, Verif.TagSet.TagSet.prime] at h
  · intro h
    simp [kp, t, DiagEx.ix, Index.key, Index.prime, Verif.TagSet.TagSet.prime] at h
    exact hp h

/-- `polar` with a prime level of 3. -/
example : ∃ Q P : IT Int, polar 10 (fun _ => 77) (fun _ => 78) (RingHom.id Int) 3 U S V = some (.ok (Q, P)) ∧
    (∀ σ : Key → Nat, (∀ k ∈ [s.key, t.key], σ k < 2) → (mul (fun _ => 2) Q.sem P.sem).val σ = T U V σ) ∧
    ∀ σ τ ρ : Key → Nat, (∀ k ∈ [t.key].map (kp 3), σ k < 2) → (∀ k ∈ [t.key].map (kp 3), τ k < 2) →
      sumOver (fun _ => 2) [s.key] (fun ρ => Q.sem.val (glue [s.key] ρ σ) * Q.sem.val (glue [s.key] ρ τ)) ρ = if ∀ k ∈ [t.key], σ (kp 3 k) = τ (kp 3 k) then 1 else 0 := by
  obtain ⟨Q, P, h1, -, -, -, -, h2, -, -, h3, -⟩ := C104_polar_partial C104_svd (p := 3) (C104_fresh 1 (by decide)) (C104_fresh 3 (by decide)) (M := 4) (fuel := 10)
    (by decide) (by decide) (by decide) (by decide) (by decide) (by decide) (by decide) (fun _ => 77) (fun _ => 78)
  exact ⟨Q, P, h1, h2, h3 (by decide)⟩

/-! ### An index that is the primed copy of another -/

/-- `U'(s',u)` and `V'(v,s)`, the identity. -/
def U' : DS Int := ⟨[s.prime 1, u], 4, fun a => if a = 0 ∨ a = 3 then 1 else 0⟩
def V' : DS Int := ⟨[v, s], 4, fun a => if a = 0 ∨ a = 3 then 1 else 0⟩

theorem C104_svd' : IsSvd (fun _ => 2) (RingHom.id Int) (T U' V') u.key v.key [(s.prime 1).key] [s.key] U' S V' where
  okU := ⟨⟨by decide, by decide, by decide, by decide⟩, rfl⟩
  okS := ⟨⟨by decide, by decide, by decide, by decide⟩, by decide, .inr ⟨u, by decide, rfl⟩, .inr rfl⟩
  okV := ⟨⟨by decide, by decide, by decide, by decide⟩, rfl⟩
  indsU := by decide
  indsS := rfl
  indsV := by decide
  nea := by decide
  neb := by decide
  nodup := by decide
  ne := by decide
  new := by decide
  lenU := rfl
  lenV := rfl
  val := fun _ _ => rfl
  isoU := by
    refine two (two ?_ ?_) (two ?_ ?_) <;> intro σ <;> simp [sumOver, sum_range_succ, DS.sem, U', rank, s, u, DiagEx.ix, Index.key, Index.prime, Verif.TagSet.TagSet.prime]
  isoV := by
    refine two (two ?_ ?_) (two ?_ ?_) <;> intro σ <;> simp [sumOver, sum_range_succ, DS.sem, V', rank, s, v, DiagEx.ix, Index.key, Index.prime, Verif.TagSet.TagSet.prime]

/-- Whether the product of the two results is the tensor at a place. -/
def wrong (r : Run (IT Int × IT Int)) (σ : Key → Nat) : Bool :=
  match r with
  | some (.ok (Q, P)) => decide (Q.is.length = 0 ∧ (mul (fun _ => 2) Q.sem P.sem).val σ ≠ T U' V' σ)
  | _ => false

/-- **C104.** An operator `T(s',s)`, with `s'` as the first group: `polar` primes the index `s` of `V` to get the inner index, and this is `s'` too. The product `U*Vp` sums over it: `Q` is a number, and
`Q*P` is not the tensor. -/
theorem C104_polar_counterexample : ∃ (Q P : IT Int) (σ : Key → Nat), IsSvd (fun _ => 2) (RingHom.id Int) (T U' V') u.key v.key [(s.prime 1).key] [s.key] U' S V' ∧
    polar 10 (fun _ => 77) (fun _ => 78) (RingHom.id Int) 1 U' S V' = some (.ok (Q, P)) ∧ (∀ k, σ k < 2) ∧ Q.is.length = 0 ∧ (mul (fun _ => 2) Q.sem P.sem).val σ ≠ T U' V' σ := by
  have h : wrong (polar 10 (fun _ => 77) (fun _ => 78) (RingHom.id Int) 1 U' S V') (fun _ => 0) = true := by decide +kernel
  generalize polar 10 (fun _ => 77) (fun _ => 78) (RingHom.id Int) 1 U' S V' = r at h ⊢
  rcases r with _ | ⟨Q, P⟩ | _ | _
  · simp [wrong] at h
  · have := of_decide_eq_true h
    exact ⟨Q, P, fun _ => 0, C104_svd', rfl, fun _ => Nat.zero_lt_two, this.1, this.2⟩
  · simp [wrong] at h
  · simp [wrong] at h

end Verif.Factor.Ex
