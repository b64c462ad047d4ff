import Verif.AutoMPO.SvdOps

/-!
# Examples and counterexamples for the default conversion (C65)
-/

namespace Verif.AutoMPO

open Finset

section Blocks

variable {K : Type*} [CommRing K] [StarRing K] {Q : Type*} [AddCommMonoid Q] [DecidableEq Q]
variable {qn : SiteTerm → Q} {terms : List (HTerm K)} {near : K → K → Bool} {svd : Svd Q K}

instance [DecidableEq K] (mat : List ((Nat × Nat) × K)) (f : Nat × (Nat → Nat → K)) : Decidable (Keeps mat f) := by
  unfold Keeps
  infer_instance

/-- The result of the partition, if there is one. -/
def parts (qn : SiteTerm → Q) (near : K → K → Bool) (terms : List (HTerm K)) : Parts Q K :=
  match partition qn near terms with
  | .ok s => s
  | _ => Parts.empty

/-- It is enough to look at the factorizations of the blocks which there are. -/
theorem keeps_all (hnear : ∀ x, near x x = true) (hsort : ∀ t ∈ terms, t.ops.Pairwise fun a b => a.i ≤ b.i) (B : List (Nat × Q))
    (hB : ∀ v ∈ terms.flatMap visitsOf, 1 ≤ v.2 ∧ (vl v ≠ [] → (v.2 - 1, lq qn v) ∈ B))
    (hk : ∀ b ∈ B, Keeps ((parts qn near terms).mat b.1 b.2) (svd b.1 b.2)) :
    ∀ s, partition qn near terms = .ok s → ∀ n q, Keeps (s.mat n q) (svd n q) := by
  intro s hs n q
  by_cases h : (n, q) ∈ B
  · have := hk _ h
    rw [parts, hs] at this
    exact this
  · obtain ⟨s', e, hi⟩ := partition_inv qn hnear (ops := opsOf) (terms.flatMap visitsOf) fun v hv => by
      refine ⟨(hB v hv).1, onsite_eq _ ?_⟩
      obtain ⟨t, ht, hv⟩ := List.mem_flatMap.1 hv
      simp only [visitsOf, List.mem_map] at hv
      obtain ⟨m, _, rfl⟩ := hv
      exact hsort t ht
    rw [← partition, hs] at e
    obtain rfl := Res.ok.inj e
    have : s.mat n q = [] := by
      rw [hi.mat, List.map_eq_nil_iff, List.filter_eq_nil_iff]
      intro v hv
      simp only [decide_eq_true_eq]
      rintro ⟨h1, h2, h3⟩
      have := (hB v hv).2 h3
      rw [← h1, ← h2, Nat.add_sub_cancel] at this
      exact h this
    rw [this]
    intro l hl
    exact absurd hl (by simp [nrows])

end Blocks

/-- The comparison of coefficients (autompo.cc:236-241), and `isZero(coef,1E-14)`. -/
def near12 (x y : ℚ) : Bool := |x - y| ≤ 1 / 10 ^ 12
def tiny14 (x : ℚ) : Bool := |x| < 1 / 10 ^ 14

/-- Minus the change of the number of particles. -/
def numQN (u : SiteTerm) : ℤ :=
  if u.op ∈ [nCdag, nCdagup, nCdagdn, nAdag, nAdagup, nAdagdn] then -1
  else if u.op ∈ [nC, nCup, nCdn, nA, nAup, nAdn] then 1 else 0

/-- No quantum numbers. -/
def noQN (_ : SiteTerm) : ℤ := 0

theorem near12_refl (x : ℚ) : near12 x x = true := by
  simp only [near12, sub_self, abs_zero]
  decide +kernel

/-- A chain of three sites of spinless fermions. -/
def fermions3 : Fin 3 → Kind := fun _ => .fermion

/-- Three terms: two of the hopping terms from site 1 need one state of the first link instead of two. -/
def hop3 : List (HTerm ℚ) :=
  [⟨3, [⟨nCdag, 1⟩, ⟨nC, 2⟩]⟩, ⟨4, [⟨nCdag, 1⟩, ⟨nC, 3⟩]⟩, ⟨7, [⟨nN, 1⟩, ⟨nCdag, 2⟩, ⟨nC, 2⟩, ⟨nN, 3⟩]⟩, ⟨-2, [⟨nN, 2⟩]⟩]

/-- The factorizations of their blocks. -/
def hop3svd : Svd ℤ ℚ := fun n q =>
  if n = 1 ∧ q = -1 then (1, fun k _ => if k = 0 then 3 / 5 else 4 / 5) else (1, fun _ _ => 1)

theorem hop3_ok : TermsOk numQN hop3 3 where
  ne := by decide
  sorted := by decide
  range := by decide
  distinct := by decide
  even := by decide
  names := by decide
  flux := by decide

theorem hop3_keeps : ∀ s, partition numQN near12 hop3 = .ok s → ∀ n q, Keeps (s.mat n q) (hop3svd n q) :=
  keeps_all near12_refl (by decide) [(1, -1), (2, -1), (1, 0), (2, 0)] (by decide +kernel) (by decide +kernel)

/-- Both the compression and the fermionic signs. -/
example (s t : ∀ n, Fin (fermions3 n).dim) :
    svdElement numQN near12 (opElement (chainOps fermions3) s t) tiny14 hop3svd hop3 3 =
      .ok ((hop3.map fun u => u.coef • (u.ops.map fun st => jw (chainFermi fermions3) st.op st.i).prod).sum s t) :=
  C65_operator_partial (chainFermi fermions3) near12_refl (by decide +kernel) hop3_ok (by decide +kernel) hop3_keeps (by decide +kernel) s t

/-- The first link has one state for the two hopping terms, besides the two states which all links have and one for the term
with four operators. -/
example : (states hop3svd (parts numQN near12 hop3) 1).length = 4 := by decide +kernel

/-- One of the elements. -/
example : svdElement numQN near12 (opElement (chainOps fermions3) (fun n => if n = 0 then (1 : Fin 2) else (0 : Fin 2)) (fun n => if n = 2 then (1 : Fin 2) else (0 : Fin 2)))
    tiny14 hop3svd hop3 3 = .ok 4 := by decide +kernel

/-- Some of the operators of `SpinHalfSite::op` (sites/spinhalf.h:86-154). -/
def spinOps (a : Name) (_ : Fin 4) : Option (Matrix (Fin 2) (Fin 2) ℚ) := siteOp (lookup 2
  [(nSz, [(1, 1, 1 / 2), (2, 2, -1 / 2)]), (nSp, [(2, 1, 1)]), (nSm, [(1, 2, 1)])]) a

/-- Minus twice the change of the spin. -/
def spinQN (u : SiteTerm) : ℤ := if u.op = nSp then -2 else if u.op = nSm then 2 else 0

/-- The Heisenberg model on four sites, with a field on one of them. -/
def heisenberg4 : List (HTerm ℚ) :=
  [⟨1, [⟨nSz, 1⟩, ⟨nSz, 2⟩]⟩, ⟨1 / 2, [⟨nSp, 1⟩, ⟨nSm, 2⟩]⟩, ⟨1 / 2, [⟨nSm, 1⟩, ⟨nSp, 2⟩]⟩,
   ⟨1, [⟨nSz, 2⟩, ⟨nSz, 3⟩]⟩, ⟨1 / 2, [⟨nSp, 2⟩, ⟨nSm, 3⟩]⟩, ⟨1 / 2, [⟨nSm, 2⟩, ⟨nSp, 3⟩]⟩,
   ⟨1, [⟨nSz, 3⟩, ⟨nSz, 4⟩]⟩, ⟨1 / 2, [⟨nSp, 3⟩, ⟨nSm, 4⟩]⟩, ⟨1 / 2, [⟨nSm, 3⟩, ⟨nSp, 4⟩]⟩, ⟨1 / 10, [⟨nSz, 2⟩]⟩]

example (s t : Fin 4 → Fin 2) :
    svdElement spinQN near12 (opElement spinOps s t) tiny14 (fun _ _ => (1, fun _ _ => 1)) heisenberg4 4 =
      .ok ((heisenberg4.map fun u => u.coef •
        (u.ops.map fun st => jw (plain (ops := spinOps) (by decide +kernel) (by decide +kernel)) st.op st.i).prod).sum s t) := by
  refine C65_operator_partial (qn := spinQN) (near := near12) _ near12_refl (by decide +kernel) ?_ (by decide +kernel) ?_
    (by decide +kernel) s t
  · exact ⟨by decide, by decide, by decide, by decide, by decide, by decide, by decide⟩
  · exact keeps_all near12_refl (by decide) [(1, 0), (1, 2), (1, -2), (2, 0), (2, 2), (2, -2), (3, 0), (3, 2), (3, -2)]
      (by decide +kernel) (by decide +kernel)

/-- **C65** fails for terms with an odd number of fermionic operators: for `C_1 N_3 + N_1 N_3` the fermionic strings of the
one term are put on the other, too. -/
theorem C65_odd_counterexample :
    ∃ terms : List (HTerm ℚ), ∃ svd : Svd ℤ ℚ, ∃ s t : ∀ n, Fin (fermions3 n).dim, ∃ x y : ℚ, x ≠ y ∧
      (∀ p, partition noQN near12 terms = .ok p → ∀ n q, Keeps (p.mat n q) (svd n q)) ∧
      svdElement noQN near12 (opElement (chainOps fermions3) s t) tiny14 svd terms 3 = .ok x ∧
      (terms.map fun u => u.coef • (u.ops.map fun st => jw (chainFermi fermions3) st.op st.i).prod).sum s t = y :=
  ⟨[⟨1, [⟨nC, 1⟩, ⟨nN, 3⟩]⟩, ⟨1, [⟨nN, 1⟩, ⟨nN, 3⟩]⟩], fun _ _ => (1, fun _ _ => 1),
    fun n => if n = 1 then (0 : Fin 2) else (1 : Fin 2), fun n => if n = 1 then (0 : Fin 2) else (1 : Fin 2), 0, 1,
    by decide +kernel,
    keeps_all near12_refl (by decide) [(1, 0), (2, 0)] (by decide +kernel) (by decide +kernel), by decide +kernel, by decide +kernel⟩

/-- **C65** fails for coefficients below 1E-14: such terms are dropped, whatever the size of the others. -/
theorem C65_small_counterexample :
    ∃ terms : List (HTerm ℚ), ∃ svd : Svd ℤ ℚ, ∃ s t : ∀ n, Fin (fermions3 n).dim, ∃ y : ℚ, y ≠ 0 ∧
      (∀ p, partition noQN near12 terms = .ok p → ∀ n q, Keeps (p.mat n q) (svd n q)) ∧
      svdElement noQN near12 (opElement (chainOps fermions3) s t) tiny14 svd terms 3 = .ok 0 ∧
      (terms.map fun u => u.coef • (u.ops.map fun st => jw (chainFermi fermions3) st.op st.i).prod).sum s t = y :=
  ⟨[⟨1 / 10 ^ 15, [⟨nN, 1⟩]⟩, ⟨1 / 10 ^ 15, [⟨nN, 1⟩, ⟨nN, 2⟩]⟩], fun _ _ => (1, fun _ _ => 1),
    fun _ => (1 : Fin 2), fun _ => (1 : Fin 2), _, by decide +kernel,
    keeps_all near12_refl (by decide) [(1, 0), (2, 0)] (by decide +kernel) (by decide +kernel), by decide +kernel, rfl⟩

/-- **C65** fails for names which the rewriting makes the same: each of these two terms has the same element alone as both
together. -/
theorem C65_names_counterexample :
    let t : HTerm ℚ := ⟨1, [⟨nCdagup, 1⟩, ⟨nAup, 1⟩, ⟨nCup, 2⟩]⟩
    let u : HTerm ℚ := ⟨1, [⟨nAdagup, 1⟩, ⟨nCup, 1⟩, ⟨nCup, 2⟩]⟩
    ∃ svd : Svd ℤ ℚ, ∃ s t' : ∀ n, Fin (electrons2 n).dim, ∃ x : ℚ, x ≠ 0 ∧
      ∀ terms ∈ [[t], [u], [t, u]],
        (∀ p, partition noQN near12 terms = .ok p → ∀ n q, Keeps (p.mat n q) (svd n q)) ∧
        svdElement noQN near12 (opElement (chainOps electrons2) s t') tiny14 svd terms 2 = .ok x := by
  intro t u
  refine ⟨fun _ _ => (1, fun _ _ => 1), state2 1 0, state2 1 1, -1, by decide, ?_⟩
  intro terms ht
  simp only [List.mem_cons, List.not_mem_nil, or_false] at ht
  rcases ht with rfl | rfl | rfl
  all_goals exact ⟨keeps_all near12_refl (by decide) [(1, 0)] (by decide +kernel) (by decide +kernel), by decide +kernel⟩

end Verif.AutoMPO
