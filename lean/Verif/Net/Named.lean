import Verif.Tensor.ContractProps
import Mathlib.Data.List.Dedup

/-!
# Tensors with named indices: the meaning of a product of ITensors

This file is specification: a tensor is a list of index names and a function of the values of those
names; the product sums over the shared names. `Net/ITensor.lean` shows that the modelled
`ITensor::operator*=` computes this product.
-/

namespace Verif.Net

open Verif.Tensor Finset

/-- A tensor with named indices. -/
structure Ten (X K : Type*) where
  inds : List X
  val : (X → Nat) → K

variable {X : Type*} [DecidableEq X] {K : Type*} [CommRing K]

/-- The element depends only on the values of the tensor's own indices. -/
def DependsOn (S : X → Prop) (F : (X → Nat) → K) : Prop := ∀ σ τ : X → Nat, (∀ x, S x → σ x = τ x) → F σ = F τ

/-- No repeated index, and elements depend only on the tensor's indices. -/
structure Ten.OK (T : Ten X K) : Prop where
  nodup : T.inds.Nodup
  dep : DependsOn (· ∈ T.inds) T.val

/-- The product: sum over all values of the shared indices. -/
def mul (ext : X → Nat) (A B : Ten X K) : Ten X K :=
  ⟨A.inds.filter (· ∉ B.inds) ++ B.inds.filter (· ∉ A.inds),
    sumOver ext (A.inds.filter (· ∈ B.inds)) fun σ => A.val σ * B.val σ⟩

/-! ## Sums over names -/

theorem sumOver_append (ext : X → Nat) (F : (X → Nat) → K) : ∀ (a b : List X) (ρ : X → Nat),
    sumOver ext (a ++ b) F ρ = sumOver ext a (sumOver ext b F) ρ := by
  intro a
  induction a with
  | nil => intro b ρ; rfl
  | cons x a ih => intro b ρ; simp only [List.cons_append, sumOver, ih]

theorem sumOver_congr (ext : X → Nat) {F G : (X → Nat) → K} : ∀ (cs : List X) (ρ : X → Nat),
    (∀ σ, (∀ x, x ∉ cs → σ x = ρ x) → F σ = G σ) → sumOver ext cs F ρ = sumOver ext cs G ρ := by
  intro cs
  induction cs with
  | nil => intro ρ h; exact h ρ (fun _ _ => rfl)
  | cons x cs ih =>
    intro ρ h
    simp only [sumOver]
    refine sum_congr rfl fun v _ => ih _ fun σ hσ => h σ fun y hy => ?_
    simp only [List.mem_cons, not_or] at hy
    rw [hσ y hy.2, Function.update_of_ne hy.1]

theorem sumOver_mul_left (ext : X → Nat) {G F : (X → Nat) → K} : ∀ (cs : List X) (ρ : X → Nat),
    DependsOn (· ∉ cs) G → sumOver ext cs (fun σ => G σ * F σ) ρ = G ρ * sumOver ext cs F ρ := by
  intro cs
  induction cs with
  | nil => intro ρ _; rfl
  | cons x cs ih =>
    intro ρ h
    simp only [sumOver]
    rw [mul_sum]
    refine sum_congr rfl fun v _ => ?_
    rw [ih]
    · congr 1
      apply h
      intro y hy
      simp only [List.mem_cons, not_or] at hy
      rw [Function.update_of_ne hy.1]
    · intro σ τ hst
      apply h
      intro y hy
      simp only [List.mem_cons, not_or] at hy
      exact hst y hy.2

theorem sumOver_mul_right (ext : X → Nat) {G F : (X → Nat) → K} (cs : List X) (ρ : X → Nat)
    (h : DependsOn (· ∉ cs) G) : sumOver ext cs (fun σ => F σ * G σ) ρ = sumOver ext cs F ρ * G ρ := by
  rw [mul_comm, ← sumOver_mul_left ext cs ρ h]
  simp only [mul_comm]

theorem sumOver_dep (ext : X → Nat) {F : (X → Nat) → K} {S : X → Prop} (hF : DependsOn S F) : ∀ (cs : List X),
    DependsOn (fun x => S x ∧ x ∉ cs) (sumOver ext cs F) := by
  intro cs
  induction cs with
  | nil => intro σ τ h; exact hF σ τ fun x hx => h x ⟨hx, by simp⟩
  | cons x cs ih =>
    intro σ τ h
    simp only [sumOver]
    refine sum_congr rfl fun v _ => ih _ _ fun y hy => ?_
    by_cases hyx : y = x
    · subst hyx; simp
    · rw [Function.update_of_ne hyx, Function.update_of_ne hyx]
      exact h y ⟨hy.1, by simp [hyx, hy.2]⟩

omit [DecidableEq X] in
theorem DependsOn.mono {S S' : X → Prop} {F : (X → Nat) → K} (h : DependsOn S F) (hs : ∀ x, S x → S' x) :
    DependsOn S' F := fun σ τ hst => h σ τ fun x hx => hst x (hs x hx)

omit [DecidableEq X] in
theorem DependsOn.mul {S : X → Prop} {F G : (X → Nat) → K} (h : DependsOn S F) (h' : DependsOn S G) :
    DependsOn S fun σ => F σ * G σ := fun σ τ hst => by dsimp only; rw [h σ τ hst, h' σ τ hst]

theorem mul_mem (ext : X → Nat) {A B : Ten X K} {x : X} :
    x ∈ (mul ext A B).inds ↔ (x ∈ A.inds ∧ x ∉ B.inds) ∨ (x ∈ B.inds ∧ x ∉ A.inds) := by
  simp [mul]

theorem mul_ok (ext : X → Nat) {A B : Ten X K} (hA : A.OK) (hB : B.OK) : (mul ext A B).OK := by
  refine ⟨?_, ?_⟩
  · refine List.Nodup.append (hA.nodup.filter _) (hB.nodup.filter _) ?_
    intro x h1 h2
    simp at h1 h2
    exact h1.2 h2.1
  · have hd : DependsOn (fun x => x ∈ A.inds ∨ x ∈ B.inds) fun σ => A.val σ * B.val σ :=
      (hA.dep.mono fun x h => Or.inl h).mul (hB.dep.mono fun x h => Or.inr h)
    refine (sumOver_dep ext hd (A.inds.filter (· ∈ B.inds))).mono fun x hx => ?_
    rw [mul_mem]
    simp at hx
    tauto

/-! ## Networks -/

/-- A way of multiplying several tensors together. -/
inductive PTree (T : Type*) where
  | leaf (t : T)
  | node (l r : PTree T)

def PTree.leaves {T : Type*} : PTree T → List T
  | .leaf t => [t]
  | .node l r => l.leaves ++ r.leaves

/-- Multiply in the given order. -/
def PTree.eval (ext : X → Nat) : PTree (Ten X K) → Ten X K
  | .leaf t => t
  | .node l r => mul ext (l.eval ext) (r.eval ext)

/-- In how many of the tensors an index occurs. -/
def occ (x : X) (Ts : List (Ten X K)) : Nat := Ts.countP fun T => decide (x ∈ T.inds)

/-- The product of the elements of all tensors. -/
def prodVal (Ts : List (Ten X K)) (σ : X → Nat) : K := (Ts.map fun T => T.val σ).prod

omit [CommRing K] in
theorem occ_append (x : X) (a b : List (Ten X K)) : occ x (a ++ b) = occ x a + occ x b := List.countP_append ..

omit [DecidableEq X] in
theorem prodVal_append (a b : List (Ten X K)) (σ : X → Nat) : prodVal (a ++ b) σ = prodVal a σ * prodVal b σ := by
  simp [prodVal]

theorem prodVal_dep : ∀ {Ts : List (Ten X K)}, (∀ T ∈ Ts, T.OK) → DependsOn (fun x => 0 < occ x Ts) (prodVal Ts) := by
  intro Ts
  induction Ts with
  | nil => intro _ σ τ _; rfl
  | cons T Ts ih =>
    intro h σ τ hst
    simp only [prodVal, List.map_cons, List.prod_cons]
    congr 1
    · exact (h T (by simp)).dep σ τ fun x hx => hst x (by simp [occ, hx])
    · exact ih (fun T' h' => h T' (by simp [h'])) σ τ fun x hx => hst x (by
        simp only [occ, List.countP_cons] at hx ⊢; omega)

/-- The names that occur twice, as a list. -/
def twice (Ts : List (Ten X K)) : List X := ((Ts.flatMap (·.inds)).dedup).filter fun x => occ x Ts = 2

omit [CommRing K] in
theorem mem_twice {Ts : List (Ten X K)} {x : X} : x ∈ twice Ts ↔ occ x Ts = 2 := by
  simp only [twice, List.mem_filter, List.mem_dedup, List.mem_flatMap, decide_eq_true_eq]
  constructor
  · exact fun h => h.2
  · intro h
    refine ⟨?_, h⟩
    have : 0 < occ x Ts := by omega
    rw [occ, List.countP_pos_iff] at this
    simpa using this

omit [CommRing K] in
theorem twice_nodup (Ts : List (Ten X K)) : (twice Ts).Nodup := (List.nodup_dedup _).filter _

/-- **C61.** A network of tensors in which every index occurs on at most two tensors: in whatever order
the tensors are multiplied together, the result has the indices that occur once, and its elements are
the sums over all values of the indices that occur twice of the products of all elements. -/
theorem C61_network (ext : X → Nat) : ∀ t : PTree (Ten X K), (∀ T ∈ t.leaves, T.OK) → (∀ x, occ x t.leaves ≤ 2) →
    (t.eval ext).OK ∧ (∀ x, x ∈ (t.eval ext).inds ↔ occ x t.leaves = 1) ∧
    ∀ D : List X, D.Nodup → (∀ x, x ∈ D ↔ occ x t.leaves = 2) →
      ∀ σ, (t.eval ext).val σ = sumOver ext D (prodVal t.leaves) σ := by
  intro t
  induction t with
  | leaf T =>
    intro hok hocc
    have hT := hok T (by simp [PTree.leaves])
    have hone : ∀ x, occ x [T] = if x ∈ T.inds then 1 else 0 := by
      intro x; simp [occ, List.countP_cons]
    refine ⟨hT, fun x => ?_, fun D _ hD σ => ?_⟩
    · simp only [PTree.leaves, PTree.eval, hone]; split_ifs <;> simp_all
    · have : D = [] := by
        rw [List.eq_nil_iff_forall_not_mem]
        intro x hx
        have := (hD x).1 hx
        simp only [PTree.leaves, hone] at this
        split_ifs at this <;> omega
      subst this
      simp [sumOver, PTree.eval, PTree.leaves, prodVal]
  | node l r ihl ihr =>
    intro hok hocc
    simp only [PTree.leaves, PTree.eval, occ_append] at hok hocc ⊢
    have okl : ∀ T ∈ l.leaves, T.OK := fun T h => hok T (by simp [h])
    have okr : ∀ T ∈ r.leaves, T.OK := fun T h => hok T (by simp [h])
    obtain ⟨l1, l2, l3⟩ := ihl okl fun x => by have := hocc x; omega
    obtain ⟨r1, r2, r3⟩ := ihr okr fun x => by have := hocc x; omega
    refine ⟨mul_ok ext l1 r1, fun x => ?_, fun D hDn hD σ => ?_⟩
    · rw [mul_mem, l2, r2]
      have := hocc x
      omega
    · have el := l3 (twice l.leaves) (twice_nodup _) fun x => mem_twice
      have er := r3 (twice r.leaves) (twice_nodup _) fun x => mem_twice
      set S := (l.eval ext).inds.filter (· ∈ (r.eval ext).inds) with hS
      have memS : ∀ x, x ∈ S ↔ occ x l.leaves = 1 ∧ occ x r.leaves = 1 := by
        intro x; rw [hS, List.mem_filter, l2]; simp [r2]
      have step : (mul ext (l.eval ext) (r.eval ext)).val σ =
          sumOver ext (S ++ (twice l.leaves ++ twice r.leaves)) (prodVal (l.leaves ++ r.leaves)) σ := by
        rw [sumOver_append]
        simp only [mul, ← hS]
        apply sumOver_congr
        intro τ _
        rw [el, er, sumOver_append, ← sumOver_mul_right]
        · apply sumOver_congr
          intro τ' _
          rw [← sumOver_mul_left]
          · apply sumOver_congr
            intro τ'' _
            rw [prodVal_append]
          · refine (prodVal_dep okl).mono fun x hx => ?_
            rw [mem_twice]
            have := hocc x; omega
        · refine (sumOver_dep ext (prodVal_dep okr) _).mono fun x hx => ?_
          rw [mem_twice]
          have := hocc x; omega
      rw [step]
      apply sumOver_perm
      · rw [List.perm_ext_iff_of_nodup ?_ hDn]
        · intro x
          rw [hD, List.mem_append, List.mem_append, memS, mem_twice, mem_twice]
          have := hocc x
          omega
        · refine List.Nodup.append (l1.nodup.filter _) (List.Nodup.append (twice_nodup _) (twice_nodup _) ?_) ?_
          · intro x h1 h2
            rw [mem_twice] at h1 h2
            have := hocc x; omega
          · intro x h1 h2
            rw [memS] at h1
            rw [List.mem_append, mem_twice, mem_twice] at h2
            omega
      · refine List.Nodup.append (l1.nodup.filter _) (List.Nodup.append (twice_nodup _) (twice_nodup _) ?_) ?_
        · intro x h1 h2
          rw [mem_twice] at h1 h2
          have := hocc x; omega
        · intro x h1 h2
          rw [memS] at h1
          rw [List.mem_append, mem_twice, mem_twice] at h2
          omega

/-- **C61, order.** Two ways of multiplying the same tensors give the same elements. -/
theorem C61_order (ext : X → Nat) {t t' : PTree (Ten X K)} (h : t.leaves.Perm t'.leaves) (hok : ∀ T ∈ t.leaves, T.OK)
    (hocc : ∀ x, occ x t.leaves ≤ 2) :
    (t.eval ext).inds.Perm (t'.eval ext).inds ∧ ∀ σ, (t.eval ext).val σ = (t'.eval ext).val σ := by
  have ho : ∀ x, occ x t.leaves = occ x t'.leaves := fun x => h.countP_eq _
  obtain ⟨a1, a2, a3⟩ := C61_network ext t hok hocc
  obtain ⟨b1, b2, b3⟩ := C61_network ext t' (fun T hT => hok T (h.mem_iff.2 hT)) fun x => ho x ▸ hocc x
  refine ⟨(List.perm_ext_iff_of_nodup a1.nodup b1.nodup).2 fun x => by rw [a2, b2, ho], fun σ => ?_⟩
  rw [a3 _ (twice_nodup t.leaves) (fun x => mem_twice) σ, b3 _ (twice_nodup t.leaves) (fun x => by rw [mem_twice, ho]) σ]
  congr 1
  funext τ
  exact (h.map fun T => T.val τ).prod_eq

/-- **An index on three tensors makes the order matter**: with `A(i)`, `B(i)`, `C(i)` the product
`(A*B)*C` differs from `A*(B*C)`. The condition on indices is needed. -/
theorem C61_three_counterexample : ∃ A B C : Ten Nat Int, A.OK ∧ B.OK ∧ C.OK ∧
    (mul (fun _ => 2) (mul (fun _ => 2) A B) C).val (fun _ => 0) ≠
      (mul (fun _ => 2) A (mul (fun _ => 2) B C)).val (fun _ => 0) := by
  refine ⟨⟨[0], fun σ => σ 0⟩, ⟨[0], fun σ => σ 0⟩, ⟨[0], fun σ => σ 0 + 1⟩, ⟨by simp, ?_⟩, ⟨by simp, ?_⟩, ⟨by simp, ?_⟩, by decide⟩
  all_goals intro σ τ h; simp at h; simp [h]

end Verif.Net
