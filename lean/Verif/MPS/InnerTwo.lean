import Verif.MPS.InnerOp

/-!
# Products of four layers

`inner(MPO,MPS,MPO,MPS)` multiplies the tensors of `y`, `B`, `A` and `x` of one site after another (mpo.cc:683-691). The
states `x` and `y` may have the same site indices: such an index is on four of the tensors, and the products are not
a network in the sense of `C61_network`. Here the product of the four layers is shown to be the product of two, each of
which is a network.
-/

namespace Verif.MPS

open Verif.Tensor Verif.Index Verif.Index.IndexSet Verif.Net Finset

variable {K : Type*} [CommRing K] [DecidableEq K]

/-! ## Tensors which differ in the order of their indices -/

/-- The same indices, in some order, and the same elements. -/
def Eqv (A B : Ten Key K) : Prop := (∀ k, k ∈ A.inds ↔ k ∈ B.inds) ∧ ∀ σ, A.val σ = B.val σ

omit [DecidableEq K] in
theorem Eqv.trans {A B C : Ten Key K} (h : Eqv A B) (h' : Eqv B C) : Eqv A C :=
  ⟨fun k => (h.1 k).trans (h'.1 k), fun σ => (h.2 σ).trans (h'.2 σ)⟩

omit [DecidableEq K] in
theorem Eqv.refl (A : Ten Key K) : Eqv A A := ⟨fun _ => Iff.rfl, fun _ => rfl⟩

omit [DecidableEq K] in
theorem Eqv.mul {ext : Key → Nat} {A A' B B' : Ten Key K} (hA : A.OK) (hA' : A'.OK) (h : Eqv A A') (h' : Eqv B B') :
    Eqv (mul ext A B) (mul ext A' B') := by
  refine ⟨fun k => by rw [Net.mul_mem, Net.mul_mem, h.1, h'.1], fun σ => ?_⟩
  simp only [Net.mul]
  have e : (fun τ => A.val τ * B.val τ) = fun τ => A'.val τ * B'.val τ := by funext τ; rw [h.2, h'.2]
  rw [e]
  refine sumOver_perm ext ?_ ?_ _ σ
  · rw [List.perm_ext_iff_of_nodup (hA.nodup.filter _) (hA'.nodup.filter _)]
    intro k
    simp only [List.mem_filter, decide_eq_true_eq, h.1, h'.1]
  · exact hA.nodup.filter _

omit [DecidableEq K] in
/-- Two ways of multiplying the same tensors. -/
theorem eqv_order (ext : Key → Nat) {t t' : PTree (Ten Key K)} (h : t.leaves.Perm t'.leaves) (hok : ∀ T ∈ t.leaves, T.OK)
    (hocc : ∀ k, occ k t.leaves ≤ 2) : Eqv (t.eval ext) (t'.eval ext) := by
  obtain ⟨h1, h2⟩ := C61_order ext h hok hocc
  exact ⟨fun k => h1.mem_iff, h2⟩

/-! ## One column -/

omit [CommRing K] [DecidableEq K] in
theorem occ4 {A B C D : Ten Key K} {k : Key} {a b c d : Prop} (hA : k ∈ A.inds → a) (hB : k ∈ B.inds → b)
    (hC : k ∈ C.inds → c) (hD : k ∈ D.inds → d) (h1 : ¬ (a ∧ b ∧ c)) (h2 : ¬ (a ∧ b ∧ d))
    (h3 : ¬ (a ∧ c ∧ d)) (h4 : ¬ (b ∧ c ∧ d)) : occ k [A, B, C, D] ≤ 2 := by
  simp only [occ, List.countP_cons, List.countP_nil, decide_eq_true_eq]
  by_cases a1 : k ∈ A.inds <;> by_cases b1 : k ∈ B.inds <;> by_cases c1 : k ∈ C.inds <;> by_cases d1 : k ∈ D.inds <;>
    simp only [a1, b1, c1, d1, if_true, if_false] <;> first | omega | (exfalso; tauto)

omit [DecidableEq K] in
/-- One column: `L*P*Q*R*V` with `L = Z*W` is `(Z*(P*Q))*(W*(R*V))`. The numbers `f` and `g` tell the indices apart. -/
theorem column {ext : Key → Nat} {L Z W P Q R V : Ten Key K} (okL : L.OK) (okZ : Z.OK) (okW : W.OK) (okP : P.OK) (okQ : Q.OK)
    (okR : R.OK) (okV : V.OK) (hL : Eqv L (mul ext Z W)) {f g : Key → Nat} {c : Nat}
    (fZ : ∀ k ∈ Z.inds, (∃ j < c, f k = 10 * j + 1) ∨ f k + 10 = 10 * c + 2 ∨ f k + 10 = 10 * c + 3)
    (fW : ∀ k ∈ W.inds, (∃ j < c, f k = 10 * j + 1) ∨ f k + 10 = 10 * c + 4 ∨ f k + 10 = 10 * c + 5)
    (fP : ∀ k ∈ P.inds, f k = 10 * c ∨ f k + 10 = 10 * c + 2 ∨ f k = 10 * c + 2)
    (fQ : ∀ k ∈ Q.inds, f k = 10 * c + 1 ∨ f k = 10 * c ∨ f k + 10 = 10 * c + 3 ∨ f k = 10 * c + 3)
    (gZ : ∀ k ∈ (mul ext Z (mul ext P Q)).inds, (∃ j < c + 1, g k = 10 * j + 1) ∨ g k = 10 * c + 2 ∨ g k = 10 * c + 3)
    (gW : ∀ k ∈ W.inds, (∃ j < c, g k = 10 * j + 1) ∨ g k + 10 = 10 * c + 4 ∨ g k + 10 = 10 * c + 5)
    (gR : ∀ k ∈ R.inds, g k = 10 * c + 1 ∨ g k = 10 * c ∨ g k + 10 = 10 * c + 4 ∨ g k = 10 * c + 4)
    (gV : ∀ k ∈ V.inds, g k = 10 * c ∨ g k + 10 = 10 * c + 5 ∨ g k = 10 * c + 5) :
    Eqv (mul ext (mul ext (mul ext (mul ext L P) Q) R) V)
      (mul ext (mul ext Z (mul ext P Q)) (mul ext W (mul ext R V))) := by
  have okZW := mul_ok ext okZ okW
  have ok1 := mul_ok ext (mul_ok ext okL okP) okQ
  have ok2 := mul_ok ext (mul_ok ext okZW okP) okQ
  have okZ' := mul_ok ext okZ (mul_ok ext okP okQ)
  have e1 : Eqv (mul ext (mul ext L P) Q) (mul ext (mul ext (mul ext Z W) P) Q) :=
    Eqv.mul (mul_ok ext okL okP) (mul_ok ext okZW okP) (Eqv.mul okL okZW hL (.refl P)) (.refl Q)
  have e2 : Eqv (mul ext (mul ext (mul ext Z W) P) Q) (mul ext (mul ext Z (mul ext P Q)) W) := by
    refine eqv_order ext (t := .node (.node (.node (.leaf Z) (.leaf W)) (.leaf P)) (.leaf Q))
      (t' := .node (.node (.leaf Z) (.node (.leaf P) (.leaf Q))) (.leaf W)) ?_ ?_ ?_
    · simp only [PTree.leaves, List.cons_append, List.nil_append]
      refine List.Perm.cons Z ?_
      rw [List.perm_comm]
      exact (List.perm_append_comm (l₁ := [P, Q]) (l₂ := [W]))
    · simp only [PTree.leaves, List.cons_append, List.nil_append, List.mem_cons, List.not_mem_nil, or_false]
      rintro T (rfl | rfl | rfl | rfl) <;> assumption
    · intro k
      simp only [PTree.leaves, List.cons_append, List.nil_append]
      refine occ4 (fZ k) (fW k) (fP k) (fQ k) ?_ ?_ ?_ ?_
      · rintro ⟨⟨j, _, _⟩ | _ | _, ⟨j', _, _⟩ | _ | _, _ | _ | _⟩ <;> omega
      · rintro ⟨⟨j, _, _⟩ | _ | _, ⟨j', _, _⟩ | _ | _, _ | _ | _ | _⟩ <;> omega
      · rintro ⟨⟨j, _, _⟩ | _ | _, _ | _ | _, _ | _ | _ | _⟩ <;> omega
      · rintro ⟨⟨j, _, _⟩ | _ | _, _ | _ | _, _ | _ | _ | _⟩ <;> omega
  have e12 := e1.trans e2
  generalize mul ext Z (mul ext P Q) = Z' at *
  have okZ'W := mul_ok ext okZ' okW
  have e3 : Eqv (mul ext (mul ext (mul ext (mul ext L P) Q) R) V) (mul ext (mul ext (mul ext Z' W) R) V) :=
    Eqv.mul (mul_ok ext ok1 okR) (mul_ok ext okZ'W okR) (Eqv.mul ok1 okZ'W e12 (.refl R)) (.refl V)
  refine e3.trans ?_
  refine eqv_order ext (t := .node (.node (.node (.leaf Z') (.leaf W)) (.leaf R)) (.leaf V))
      (t' := .node (.leaf Z') (.node (.leaf W) (.node (.leaf R) (.leaf V)))) ?_ ?_ ?_
  · simp only [PTree.leaves, List.cons_append, List.nil_append, List.Perm.refl]
  · simp only [PTree.leaves, List.cons_append, List.nil_append, List.mem_cons, List.not_mem_nil, or_false]
    rintro T (rfl | rfl | rfl | rfl) <;> assumption
  · intro k
    simp only [PTree.leaves, List.cons_append, List.nil_append]
    refine occ4 (gZ k) (gW k) (gR k) (gV k) ?_ ?_ ?_ ?_
    · rintro ⟨⟨j, _, _⟩ | _ | _, ⟨j', _, _⟩ | _ | _, _ | _ | _ | _⟩ <;> omega
    · rintro ⟨⟨j, _, _⟩ | _ | _, ⟨j', _, _⟩ | _ | _, _ | _ | _⟩ <;> omega
    · rintro ⟨⟨j, _, _⟩ | _ | _, _ | _ | _ | _, _ | _ | _⟩ <;> omega
    · rintro ⟨⟨j, _, _⟩ | _ | _, _ | _ | _ | _, _ | _ | _⟩ <;> omega

theorem col_mem {T x y u t l a : Prop} {n c p r : Nat} (hp : 2 ≤ p ∧ p ≤ 9) (hr : 2 ≤ r ∧ r ≤ 9)
    (hpr : p ≠ r) (hT : T → ∃ j < c, n = 10 * j + 1) (hx : x → n + 10 = 10 * c + p)
    (hy : y → n + 10 = 10 * c + r) (hu : u → n = 10 * c) (ht : t → n = 10 * c + 1) (hl : l → n = 10 * c + p)
    (ha : a → n = 10 * c + r) :
    let pq := ((u ∨ x ∨ l) ∧ ¬ ((t ∨ u) ∨ y ∨ a)) ∨ (((t ∨ u) ∨ y ∨ a) ∧ ¬ (u ∨ x ∨ l))
    (((T ∨ x ∨ y) ∧ ¬ pq) ∨ (pq ∧ ¬ (T ∨ x ∨ y))) ↔ (T ∨ t) ∨ l ∨ a := by
  by_cases h1 : T
  · obtain ⟨j, h2, h3⟩ := hT h1
    have a1 : ¬ x := fun h => by have := hx h; omega
    have a2 : ¬ y := fun h => by have := hy h; omega
    have a3 : ¬ u := fun h => by have := hu h; omega
    have a4 : ¬ t := fun h => by have := ht h; omega
    have a5 : ¬ l := fun h => by have := hl h; omega
    have a6 : ¬ a := fun h => by have := ha h; omega
    simp [*]
  by_cases h2 : x
  · have := hx h2
    have a2 : ¬ y := fun h => by have := hy h; omega
    have a3 : ¬ u := fun h => by have := hu h; omega
    have a4 : ¬ t := fun h => by have := ht h; omega
    have a5 : ¬ l := fun h => by have := hl h; omega
    have a6 : ¬ a := fun h => by have := ha h; omega
    simp [*]
  by_cases h3 : y
  · have := hy h3
    have a3 : ¬ u := fun h => by have := hu h; omega
    have a4 : ¬ t := fun h => by have := ht h; omega
    have a5 : ¬ l := fun h => by have := hl h; omega
    have a6 : ¬ a := fun h => by have := ha h; omega
    simp [*]
  by_cases h4 : u
  · have := hu h4
    have a4 : ¬ t := fun h => by have := ht h; omega
    have a5 : ¬ l := fun h => by have := hl h; omega
    have a6 : ¬ a := fun h => by have := ha h; omega
    simp [*]
  by_cases h5 : t
  · have := ht h5
    have a5 : ¬ l := fun h => by have := hl h; omega
    have a6 : ¬ a := fun h => by have := ha h; omega
    simp [*]
  by_cases h6 : l
  · have := hl h6
    have a6 : ¬ a := fun h => by have := ha h; omega
    simp [*]
  simp [*]

omit [DecidableEq K] in
/-- One column, with the indices given. -/
theorem column_inds {ext : Key → Nat} {L Z W P Q R V : Ten Key K} (okL : L.OK) (okZ : Z.OK) (okW : W.OK) (okP : P.OK) (okQ : Q.OK)
    (okR : R.OK) (okV : V.OK) (hL : Eqv L (mul ext Z W)) {x y z q x' y' z' q' : Option Key} {u t s : Key} {T0 : Key → Prop}
    (hZ : ∀ k, k ∈ Z.inds ↔ T0 k ∨ x = some k ∨ y = some k) (hW : ∀ k, k ∈ W.inds ↔ T0 k ∨ q = some k ∨ z = some k)
    (hP : ∀ k, k ∈ P.inds ↔ k = u ∨ x = some k ∨ x' = some k) (hQ : ∀ k, k ∈ Q.inds ↔ (k = t ∨ k = u) ∨ y = some k ∨ y' = some k)
    (hR : ∀ k, k ∈ R.inds ↔ (k = t ∨ k = s) ∨ z = some k ∨ z' = some k) (hV : ∀ k, k ∈ V.inds ↔ k = s ∨ q = some k ∨ q' = some k)
    {f g : Key → Nat} {c : Nat} (fT : ∀ k, T0 k → ∃ j < c, f k = 10 * j + 1) (gT : ∀ k, T0 k → ∃ j < c, g k = 10 * j + 1)
    (fx : ∀ k, x = some k → f k + 10 = 10 * c + 2) (fy : ∀ k, y = some k → f k + 10 = 10 * c + 3)
    (fz : ∀ k, z = some k → f k + 10 = 10 * c + 4) (fq : ∀ k, q = some k → f k + 10 = 10 * c + 5)
    (gz : ∀ k, z = some k → g k + 10 = 10 * c + 4) (gq : ∀ k, q = some k → g k + 10 = 10 * c + 5)
    (fx' : ∀ k, x' = some k → f k = 10 * c + 2) (fy' : ∀ k, y' = some k → f k = 10 * c + 3)
    (gx' : ∀ k, x' = some k → g k = 10 * c + 2) (gy' : ∀ k, y' = some k → g k = 10 * c + 3)
    (gz' : ∀ k, z' = some k → g k = 10 * c + 4) (gq' : ∀ k, q' = some k → g k = 10 * c + 5)
    (fu : f u = 10 * c) (ft : f t = 10 * c + 1) (gs : g s = 10 * c) (gt : g t = 10 * c + 1) :
    Eqv (mul ext (mul ext (mul ext (mul ext L P) Q) R) V)
      (mul ext (mul ext Z (mul ext P Q)) (mul ext W (mul ext R V))) ∧
    (∀ k, k ∈ (mul ext Z (mul ext P Q)).inds ↔ (T0 k ∨ k = t) ∨ x' = some k ∨ y' = some k) ∧
    (∀ k, k ∈ (mul ext W (mul ext R V)).inds ↔ (T0 k ∨ k = t) ∨ q' = some k ∨ z' = some k) := by
  have mZ : ∀ k, k ∈ (mul ext Z (mul ext P Q)).inds ↔ (T0 k ∨ k = t) ∨ x' = some k ∨ y' = some k := by
    intro k
    rw [Net.mul_mem, Net.mul_mem, hZ, hP, hQ]
    exact col_mem (n := f k) (c := c) (p := 2) (r := 3) (by omega) (by omega) (by omega) (fT k) (fx k) (fy k) (fun h => h ▸ fu)
      (fun h => h ▸ ft) (fx' k) (fy' k)
  have mW : ∀ k, k ∈ (mul ext W (mul ext R V)).inds ↔ (T0 k ∨ k = t) ∨ q' = some k ∨ z' = some k := by
    intro k
    rw [Net.mul_mem, Net.mul_mem, hW, hR, hV, or_comm (a := ((k = t ∨ k = s) ∨ z = some k ∨ z' = some k) ∧ _)]
    exact col_mem (n := g k) (c := c) (p := 5) (r := 4) (by omega) (by omega) (by omega) (gT k) (gq k) (gz k) (fun h => h ▸ gs)
      (fun h => h ▸ gt) (gq' k) (gz' k)
  refine ⟨column (f := f) (g := g) (c := c) okL okZ okW okP okQ okR okV hL ?_ ?_ ?_ ?_ ?_ ?_ ?_ ?_, mZ, mW⟩
  · intro k hk
    exact ((hZ k).1 hk).imp (fT k) (Or.imp (fx k) (fy k))
  · intro k hk
    exact ((hW k).1 hk).imp (fT k) (fun h => (Or.imp (fq k) (fz k) h).symm)
  · intro k hk
    rcases (hP k).1 hk with rfl | h | h
    · exact Or.inl fu
    · exact Or.inr (Or.inl (fx k h))
    · exact Or.inr (Or.inr (fx' k h))
  · intro k hk
    rcases (hQ k).1 hk with (rfl | rfl) | h | h
    · exact Or.inl ft
    · exact Or.inr (Or.inl fu)
    · exact Or.inr (Or.inr (Or.inl (fy k h)))
    · exact Or.inr (Or.inr (Or.inr (fy' k h)))
  · intro k hk
    rcases (mZ k).1 hk with (h | rfl) | h | h
    · obtain ⟨j, h1, h2⟩ := gT k h
      exact Or.inl ⟨j, by omega, h2⟩
    · exact Or.inl ⟨c, by omega, gt⟩
    · exact Or.inr (Or.inl (gx' k h))
    · exact Or.inr (Or.inr (gy' k h))
  · intro k hk
    exact ((hW k).1 hk).imp (gT k) (fun h => (Or.imp (gq k) (gz k) h).symm)
  · intro k hk
    rcases (hR k).1 hk with (rfl | rfl) | h | h
    · exact Or.inl gt
    · exact Or.inr (Or.inl gs)
    · exact Or.inr (Or.inr (Or.inl (gz k h)))
    · exact Or.inr (Or.inr (Or.inr (gz' k h)))
  · intro k hk
    rcases (hV k).1 hk with rfl | h | h
    · exact Or.inl gs
    · exact Or.inr (Or.inl (gq k h))
    · exact Or.inr (Or.inr (gq' k h))

/-! ## All columns -/

/-- The tensors in the order of multiplication. -/
def interleave4 {T : Type*} : List T → List T → List T → List T → List T
  | a :: A, b :: B, c :: C, d :: D => a :: b :: c :: d :: interleave4 A B C D
  | _, _, _, _ => []

/-- `Z*(P_1*Q_1)*(P_2*Q_2)*...` -/
def pairTree {T : Type*} (Z : PTree T) : List T → List T → PTree T
  | P :: Ps, Q :: Qs => pairTree (.node Z (.node (.leaf P) (.leaf Q))) Ps Qs
  | _, _ => Z

/-- The `i`-th index of the list is given the number `10*(c+i)+o`. -/
def Cls (f : Key → Nat) (o : Nat) : Nat → List Key → Prop
  | _, [] => True
  | c, k :: ks => f k = 10 * c + o ∧ Cls f o (c + 1) ks

omit [DecidableEq K] in
theorem layers {ext : Key → Nat} {f g : Key → Nat} : ∀ (u t s : List Key) (A B C D : List (Ten Key K)) (x y z q : Option Key)
    (l a b m : List Key) (c : Nat) (T0 : Key → Prop) (L Z W : PTree (Ten Key K)), t.length = u.length → s.length = u.length →
    Shape x (A.map (·.inds)) (u.map fun k => [k]) l → Shape y (B.map (·.inds)) (pairs t u) a →
    Shape z (C.map (·.inds)) (pairs t s) b → Shape q (D.map (·.inds)) (s.map fun k => [k]) m →
    (∀ T ∈ A, T.OK) → (∀ T ∈ B, T.OK) → (∀ T ∈ C, T.OK) → (∀ T ∈ D, T.OK) →
    (L.eval ext).OK → (Z.eval ext).OK → (W.eval ext).OK → Eqv (L.eval ext) (mul ext (Z.eval ext) (W.eval ext)) →
    (∀ k, k ∈ (Z.eval ext).inds ↔ T0 k ∨ x = some k ∨ y = some k) → (∀ k, k ∈ (W.eval ext).inds ↔ T0 k ∨ q = some k ∨ z = some k) →
    (∀ k, T0 k → ∃ j < c, f k = 10 * j + 1) → (∀ k, T0 k → ∃ j < c, g k = 10 * j + 1) →
    (∀ k, x = some k → f k + 10 = 10 * c + 2) → (∀ k, y = some k → f k + 10 = 10 * c + 3) →
    (∀ k, z = some k → f k + 10 = 10 * c + 4) → (∀ k, q = some k → f k + 10 = 10 * c + 5) →
    (∀ k, z = some k → g k + 10 = 10 * c + 4) → (∀ k, q = some k → g k + 10 = 10 * c + 5) →
    Cls f 0 c u → Cls f 1 c t → Cls f 2 c l → Cls f 3 c a → Cls f 4 c b → Cls f 5 c m →
    Cls g 0 c s → Cls g 1 c t → Cls g 2 c l → Cls g 3 c a → Cls g 4 c b → Cls g 5 c m →
    Eqv ((chainTree L (interleave4 A B C D)).eval ext) (mul ext ((pairTree Z A B).eval ext) ((pairTree W C D).eval ext)) := by
  intro u
  induction u with
  | nil => intro t s A B C D x y z q l a b m c T0 L Z W _ _ h; rcases A with _ | ⟨_, _ | ⟨_, _⟩⟩ <;> simp [Shape] at h
  | cons u us ih =>
    intro t s A B C D x y z q l a b m c T0 L Z W hlt hls hA hB hC hD okA okB okC okD okL okZ okW hL hZ hW fT gT fx fy fz fq gz gq
      fu ft fl fa fb fm gs gt gl ga gb gm
    rcases t with _ | ⟨t, ts⟩
    · simp at hlt
    rcases s with _ | ⟨s, ss⟩
    · simp at hls
    rcases us with _ | ⟨u', us⟩
    · rcases ts with _ | ⟨t', ts⟩
      swap
      · simp at hlt
      rcases ss with _ | ⟨s', ss⟩
      swap
      · simp at hls
      obtain ⟨P0, hA1, rfl, hP⟩ := Shape.one hA
      obtain ⟨Q0, hB1, rfl, hQ⟩ := Shape.one hB
      obtain ⟨R0, hC1, rfl, hR⟩ := Shape.one hC
      obtain ⟨V0, hD1, rfl, hV⟩ := Shape.one hD
      obtain ⟨P, A', rfl, rfl, hA'⟩ := map_eq_cons' hA1
      obtain ⟨Q, B', rfl, rfl, hB'⟩ := map_eq_cons' hB1
      obtain ⟨R, C', rfl, rfl, hC'⟩ := map_eq_cons' hC1
      obtain ⟨V, D', rfl, rfl, hD'⟩ := map_eq_cons' hD1
      obtain rfl := List.map_eq_nil_iff.1 hA'
      obtain rfl := List.map_eq_nil_iff.1 hB'
      obtain rfl := List.map_eq_nil_iff.1 hC'
      obtain rfl := List.map_eq_nil_iff.1 hD'
      simp only [List.mem_cons, List.not_mem_nil, or_false] at hP hQ hR hV
      exact (column_inds (x' := none) (y' := none) (z' := none) (q' := none) (f := f) (g := g) (c := c) okL okZ okW (okA P (by simp))
        (okB Q (by simp)) (okC R (by simp)) (okD V (by simp)) hL hZ hW (by simpa using hP) (by simpa using hQ) (by simpa using hR)
        (by simpa using hV) fT gT fx fy fz fq gz gq (by simp) (by simp) (by simp) (by simp) (by simp) (by simp) fu.1 ft.1 gs.1 gt.1).1
    · rcases ts with _ | ⟨t', ts⟩
      · simp at hlt
      rcases ss with _ | ⟨s', ss⟩
      · simp at hls
      obtain ⟨P0, A0, l0, ls, hA1, rfl, hP, hA2⟩ := Shape.more hA
      obtain ⟨Q0, B0, a0, as, hB1, rfl, hQ, hB2⟩ := Shape.more hB
      obtain ⟨R0, C0, b0, bs, hC1, rfl, hR, hC2⟩ := Shape.more hC
      obtain ⟨V0, D0, m0, ms, hD1, rfl, hV, hD2⟩ := Shape.more hD
      obtain ⟨P, A', rfl, rfl, rfl⟩ := map_eq_cons' hA1
      obtain ⟨Q, B', rfl, rfl, rfl⟩ := map_eq_cons' hB1
      obtain ⟨R, C', rfl, rfl, rfl⟩ := map_eq_cons' hC1
      obtain ⟨V, D', rfl, rfl, rfl⟩ := map_eq_cons' hD1
      have okP := okA P (by simp)
      have okQ := okB Q (by simp)
      have okR := okC R (by simp)
      have okV := okD V (by simp)
      simp only [List.mem_cons, List.not_mem_nil, or_false] at hP hQ hR hV
      obtain ⟨h1, h2, h3⟩ := column_inds (x' := some l0) (y' := some a0) (z' := some b0) (q' := some m0) (f := f) (g := g) (c := c)
        okL okZ okW okP okQ okR okV hL hZ hW (by simpa [eq_comm] using hP) (by simpa [eq_comm] using hQ) (by simpa [eq_comm] using hR)
        (by simpa [eq_comm] using hV) fT gT fx fy fz fq gz gq (by simpa using fl.1) (by simpa using fa.1) (by simpa using gl.1)
        (by simpa using ga.1) (by simpa using gb.1) (by simpa using gm.1) fu.1 ft.1 gs.1 gt.1
      rw [interleave4, pairTree, pairTree]
      simp only [chainTree]
      refine ih (t' :: ts) (s' :: ss) A' B' C' D' (some l0) (some a0) (some b0) (some m0) ls as bs ms (c + 1)
        (fun k => T0 k ∨ k = t) _ _ _ (by simpa using hlt) (by simpa using hls) hA2 hB2 hC2 hD2 (fun T hT => okA T (by simp [hT]))
        (fun T hT => okB T (by simp [hT])) (fun T hT => okC T (by simp [hT])) (fun T hT => okD T (by simp [hT]))
        (mul_ok ext (mul_ok ext (mul_ok ext (mul_ok ext okL okP) okQ) okR) okV) (mul_ok ext okZ (mul_ok ext okP okQ))
        (mul_ok ext okW (mul_ok ext okR okV)) h1 h2 h3 ?_ ?_ ?_ ?_ ?_ ?_ ?_ ?_ fu.2 ft.2 fl.2 fa.2 fb.2 fm.2 gs.2 gt.2 gl.2 ga.2 gb.2 gm.2
      · rintro k (h | rfl)
        · obtain ⟨j, h1, h2⟩ := fT k h
          exact ⟨j, by omega, h2⟩
        · exact ⟨c, by omega, ft.1⟩
      · rintro k (h | rfl)
        · obtain ⟨j, h1, h2⟩ := gT k h
          exact ⟨j, by omega, h2⟩
        · exact ⟨c, by omega, gt.1⟩
      · simp only [Option.some.injEq]; rintro k rfl; have := fl.1; omega
      · simp only [Option.some.injEq]; rintro k rfl; have := fa.1; omega
      · simp only [Option.some.injEq]; rintro k rfl; have := fb.1; omega
      · simp only [Option.some.injEq]; rintro k rfl; have := fm.1; omega
      · simp only [Option.some.injEq]; rintro k rfl; have := gb.1; omega
      · simp only [Option.some.injEq]; rintro k rfl; have := gm.1; omega

/-! ## Sizes -/

theorem xor3 {M N a r b : Prop} (hM : M ↔ a ∨ r) (hN : N ↔ a ∨ b) (h1 : a → ¬ r) (h2 : a → ¬ b) (h3 : r → ¬ b) :
    (M ∧ ¬ N ∨ N ∧ ¬ M) ↔ r ∨ b := by
  rw [hM, hN]; tauto

omit [DecidableEq K] in
/-- The indices of the intermediate tensors of one column. -/
theorem column_sizes {ext : Key → Nat} {L P Q R V : Ten Key K} {x y z q x' y' z' q' : Option Key} {u t s : Key}
    (hL : ∀ k, k ∈ L.inds ↔ x = some k ∨ y = some k ∨ z = some k ∨ q = some k)
    (hP : ∀ k, k ∈ P.inds ↔ k = u ∨ x = some k ∨ x' = some k) (hQ : ∀ k, k ∈ Q.inds ↔ (k = t ∨ k = u) ∨ y = some k ∨ y' = some k)
    (hR : ∀ k, k ∈ R.inds ↔ (k = t ∨ k = s) ∨ z = some k ∨ z' = some k) (hV : ∀ k, k ∈ V.inds ↔ k = s ∨ q = some k ∨ q' = some k)
    {f g : Key → Nat} {c : Nat}
    (fx : ∀ k, x = some k → f k + 10 = 10 * c + 2) (fy : ∀ k, y = some k → f k + 10 = 10 * c + 3)
    (fz : ∀ k, z = some k → f k + 10 = 10 * c + 4) (fq : ∀ k, q = some k → f k + 10 = 10 * c + 5)
    (gz : ∀ k, z = some k → g k + 10 = 10 * c + 4) (gq : ∀ k, q = some k → g k + 10 = 10 * c + 5)
    (fx' : ∀ k, x' = some k → f k = 10 * c + 2) (fy' : ∀ k, y' = some k → f k = 10 * c + 3)
    (gx' : ∀ k, x' = some k → g k = 10 * c + 2) (gy' : ∀ k, y' = some k → g k = 10 * c + 3)
    (gz' : ∀ k, z' = some k → g k = 10 * c + 4) (gq' : ∀ k, q' = some k → g k = 10 * c + 5)
    (fu : f u = 10 * c) (ft : f t = 10 * c + 1) (gs : g s = 10 * c) (gt : g t = 10 * c + 1) :
    (∀ k, k ∈ (mul ext L P).inds ↔ (y = some k ∨ z = some k ∨ q = some k) ∨ k = u ∨ x' = some k) ∧
    (∀ k, k ∈ (mul ext (mul ext L P) Q).inds ↔ (z = some k ∨ q = some k ∨ x' = some k) ∨ k = t ∨ y' = some k) ∧
    (∀ k, k ∈ (mul ext (mul ext (mul ext L P) Q) R).inds ↔ (q = some k ∨ x' = some k ∨ y' = some k) ∨ k = s ∨ z' = some k) ∧
    (∀ k, k ∈ (mul ext (mul ext (mul ext (mul ext L P) Q) R) V).inds ↔ x' = some k ∨ y' = some k ∨ z' = some k ∨ q' = some k) := by
  have fu' : ∀ k, k = u → f k = 10 * c := fun k h => h ▸ fu
  have ft' : ∀ k, k = t → f k = 10 * c + 1 := fun k h => h ▸ ft
  have gs' : ∀ k, k = s → g k = 10 * c := fun k h => h ▸ gs
  have gt' : ∀ k, k = t → g k = 10 * c + 1 := fun k h => h ▸ gt
  have m1 : ∀ k, k ∈ (mul ext L P).inds ↔ (y = some k ∨ z = some k ∨ q = some k) ∨ k = u ∨ x' = some k := by
    intro k
    rw [Net.mul_mem]
    refine xor3 (a := x = some k) (hL k) ((hP k).trans ?_) ?_ ?_ ?_
    · exact or_left_comm
    · intro h
      have := fx k h
      rintro (h | h | h)
      · have := fy k h; omega
      · have := fz k h; omega
      · have := fq k h; omega
    · intro h
      have := fx k h
      rintro (h | h)
      · have := fu' k h; omega
      · have := fx' k h; omega
    · rintro (h | h | h) (h' | h')
      · have := fy k h; have := fu' k h'; omega
      · have := fy k h; have := fx' k h'; omega
      · have := fz k h; have := fu' k h'; omega
      · have := fz k h; have := fx' k h'; omega
      · have := fq k h; have := fu' k h'; omega
      · have := fq k h; have := fx' k h'; omega
  have m2 : ∀ k, k ∈ (mul ext (mul ext L P) Q).inds ↔ (z = some k ∨ q = some k ∨ x' = some k) ∨ k = t ∨ y' = some k := by
    intro k
    rw [Net.mul_mem]
    refine xor3 (a := y = some k ∨ k = u) ((m1 k).trans ?_) ((hQ k).trans ?_) ?_ ?_ ?_
    · tauto
    · tauto
    · rintro (h | h) (h' | h' | h')
      · have := fy k h; have := fz k h'; omega
      · have := fy k h; have := fq k h'; omega
      · have := fy k h; have := fx' k h'; omega
      · have := fu' k h; have := fz k h'; omega
      · have := fu' k h; have := fq k h'; omega
      · have := fu' k h; have := fx' k h'; omega
    · rintro (h | h) (h' | h')
      · have := fy k h; have := ft' k h'; omega
      · have := fy k h; have := fy' k h'; omega
      · have := fu' k h; have := ft' k h'; omega
      · have := fu' k h; have := fy' k h'; omega
    · rintro (h | h | h) (h' | h')
      · have := fz k h; have := ft' k h'; omega
      · have := fz k h; have := fy' k h'; omega
      · have := fq k h; have := ft' k h'; omega
      · have := fq k h; have := fy' k h'; omega
      · have := fx' k h; have := ft' k h'; omega
      · have := fx' k h; have := fy' k h'; omega
  have m3 : ∀ k, k ∈ (mul ext (mul ext (mul ext L P) Q) R).inds ↔ (q = some k ∨ x' = some k ∨ y' = some k) ∨ k = s ∨ z' = some k := by
    intro k
    rw [Net.mul_mem]
    refine xor3 (a := z = some k ∨ k = t) ((m2 k).trans ?_) ((hR k).trans ?_) ?_ ?_ ?_
    · tauto
    · tauto
    · rintro (h | h) (h' | h' | h')
      · have := gz k h; have := gq k h'; omega
      · have := gz k h; have := gx' k h'; omega
      · have := gz k h; have := gy' k h'; omega
      · have := gt' k h; have := gq k h'; omega
      · have := gt' k h; have := gx' k h'; omega
      · have := gt' k h; have := gy' k h'; omega
    · rintro (h | h) (h' | h')
      · have := gz k h; have := gs' k h'; omega
      · have := gz k h; have := gz' k h'; omega
      · have := gt' k h; have := gs' k h'; omega
      · have := gt' k h; have := gz' k h'; omega
    · rintro (h | h | h) (h' | h')
      · have := gq k h; have := gs' k h'; omega
      · have := gq k h; have := gz' k h'; omega
      · have := gx' k h; have := gs' k h'; omega
      · have := gx' k h; have := gz' k h'; omega
      · have := gy' k h; have := gs' k h'; omega
      · have := gy' k h; have := gz' k h'; omega
  refine ⟨m1, m2, m3, ?_⟩
  intro k
  rw [Net.mul_mem]
  refine (xor3 (a := q = some k ∨ k = s) (r := x' = some k ∨ y' = some k ∨ z' = some k) (b := q' = some k)
    ((m3 k).trans ?_) ((hV k).trans ?_) ?_ ?_ ?_).trans ?_
  · tauto
  · tauto
  · rintro (h | h) (h' | h' | h')
    · have := gq k h; have := gx' k h'; omega
    · have := gq k h; have := gy' k h'; omega
    · have := gq k h; have := gz' k h'; omega
    · have := gs' k h; have := gx' k h'; omega
    · have := gs' k h; have := gy' k h'; omega
    · have := gs' k h; have := gz' k h'; omega
  · rintro (h | h) h'
    · have := gq k h; have := gq' k h'; omega
    · have := gs' k h; have := gq' k h'; omega
  · rintro (h | h | h) h'
    · have := gx' k h; have := gq' k h'; omega
    · have := gy' k h; have := gq' k h'; omega
    · have := gz' k h; have := gq' k h'; omega
  · tauto

omit [DecidableEq K] in
theorem sizes4 {ext : Key → Nat} {d fuel : Nat} (hd : 1 ≤ d) (hext : ∀ k, ext k ≤ d) (hmax : ((d ^ 5 : Nat) : Int) ≤ offMax)
    (hfuel : d ^ 5 < fuel) {f g : Key → Nat} : ∀ (u t s : List Key) (A B C D : List (Ten Key K)) (x y z q : Option Key)
    (l a b m : List Key) (c : Nat) (L : PTree (Ten Key K)), t.length = u.length → s.length = u.length →
    Shape x (A.map (·.inds)) (u.map fun k => [k]) l → Shape y (B.map (·.inds)) (pairs t u) a →
    Shape z (C.map (·.inds)) (pairs t s) b → Shape q (D.map (·.inds)) (s.map fun k => [k]) m →
    (∀ T ∈ A, T.OK) → (∀ T ∈ B, T.OK) → (∀ T ∈ C, T.OK) → (∀ T ∈ D, T.OK) →
    (L.eval ext).OK → (∀ k, k ∈ (L.eval ext).inds ↔ x = some k ∨ y = some k ∨ z = some k ∨ q = some k) →
    (∀ k, x = some k → f k + 10 = 10 * c + 2) → (∀ k, y = some k → f k + 10 = 10 * c + 3) →
    (∀ k, z = some k → f k + 10 = 10 * c + 4) → (∀ k, q = some k → f k + 10 = 10 * c + 5) →
    (∀ k, z = some k → g k + 10 = 10 * c + 4) → (∀ k, q = some k → g k + 10 = 10 * c + 5) →
    Cls f 0 c u → Cls f 1 c t → Cls f 2 c l → Cls f 3 c a → Cls f 4 c b → Cls f 5 c m →
    Cls g 0 c s → Cls g 1 c t → Cls g 2 c l → Cls g 3 c a → Cls g 4 c b → Cls g 5 c m →
    SizesOK ext fuel L → SizesOK ext fuel (chainTree L (interleave4 A B C D)) := by
  have bound : ∀ {T : Ten Key K} {a b c d e : Option Key}, T.OK → (∀ k ∈ T.inds, a = some k ∨ b = some k ∨ c = some k ∨ d = some k ∨ e = some k) →
      ((T.inds.map ext).prod : Int) ≤ offMax ∧ (T.inds.map ext).prod < fuel := by
    intro T a b c e e' hT h
    have : (T.inds.map ext).prod ≤ d ^ 5 := inds_le hd hext hT.nodup (L := a.toList ++ (b.toList ++ (c.toList ++ (e.toList ++ e'.toList)))) (by
      intro k hk; simpa [List.mem_append, Option.mem_toList, Option.mem_def] using h k hk) (by
      have hl : ∀ o : Option Key, o.toList.length ≤ 1 := fun o => by cases o <;> simp
      have h1 := hl a; have h2 := hl b; have h3 := hl c; have h4 := hl e; have h5 := hl e'
      simp only [List.length_append]; omega)
    exact ⟨le_trans (by exact_mod_cast this) hmax, by omega⟩
  have col : ∀ {L : PTree (Ten Key K)} {P Q R V : Ten Key K} {x y z q x' y' z' q' : Option Key} {u t s : Key},
      (L.eval ext).OK → P.OK → Q.OK → R.OK → V.OK → SizesOK ext fuel L →
      (∀ k, k ∈ P.inds ↔ k = u ∨ x = some k ∨ x' = some k) → (∀ k, k ∈ Q.inds ↔ (k = t ∨ k = u) ∨ y = some k ∨ y' = some k) →
      (∀ k, k ∈ R.inds ↔ (k = t ∨ k = s) ∨ z = some k ∨ z' = some k) → (∀ k, k ∈ V.inds ↔ k = s ∨ q = some k ∨ q' = some k) →
      (∀ k, k ∈ (mul ext (L.eval ext) P).inds ↔ (y = some k ∨ z = some k ∨ q = some k) ∨ k = u ∨ x' = some k) ∧
      (∀ k, k ∈ (mul ext (mul ext (L.eval ext) P) Q).inds ↔ (z = some k ∨ q = some k ∨ x' = some k) ∨ k = t ∨ y' = some k) ∧
      (∀ k, k ∈ (mul ext (mul ext (mul ext (L.eval ext) P) Q) R).inds ↔ (q = some k ∨ x' = some k ∨ y' = some k) ∨ k = s ∨ z' = some k) ∧
      (∀ k, k ∈ (mul ext (mul ext (mul ext (mul ext (L.eval ext) P) Q) R) V).inds ↔ x' = some k ∨ y' = some k ∨ z' = some k ∨ q' = some k) →
      SizesOK ext fuel (.node (.node (.node (.node L (.leaf P)) (.leaf Q)) (.leaf R)) (.leaf V)) := by
    intro L P Q R V x y z q x' y' z' q' u t s okL okP okQ okR okV hs hP hQ hR hV ⟨m1, m2, m3, m4⟩
    have ok1 := mul_ok ext okL okP
    have ok2 := mul_ok ext ok1 okQ
    have ok3 := mul_ok ext ok2 okR
    have ok4 := mul_ok ext ok3 okV
    have e : ∀ {k u : Key}, k = u → some u = some k := fun h => by rw [h]
    simp only [SizesOK, PTree.eval]
    refine ⟨⟨⟨⟨hs, bound (a := some u) (b := x) (c := x') (d := none) (e := none) okP ?_,
      bound (a := y) (b := z) (c := q) (d := some u) (e := x') ok1 ?_⟩,
      bound (a := some t) (b := some u) (c := y) (d := y') (e := none) okQ ?_,
      bound (a := z) (b := q) (c := x') (d := some t) (e := y') ok2 ?_⟩,
      bound (a := some t) (b := some s) (c := z) (d := z') (e := none) okR ?_,
      bound (a := q) (b := x') (c := y') (d := some s) (e := z') ok3 ?_⟩,
      bound (a := some s) (b := q) (c := q') (d := none) (e := none) okV ?_,
      bound (a := x') (b := y') (c := z') (d := q') (e := none) ok4 ?_⟩
    · intro k hk; have := (hP k).1 hk; rcases this with h | h | h <;> simp [h]
    · intro k hk; have := (m1 k).1 hk; rcases this with (h | h | h) | h | h <;> simp [h]
    · intro k hk; have := (hQ k).1 hk; rcases this with (h | h) | h | h <;> simp [h]
    · intro k hk; have := (m2 k).1 hk; rcases this with (h | h | h) | h | h <;> simp [h]
    · intro k hk; have := (hR k).1 hk; rcases this with (h | h) | h | h <;> simp [h]
    · intro k hk; have := (m3 k).1 hk; rcases this with (h | h | h) | h | h <;> simp [h]
    · intro k hk; have := (hV k).1 hk; rcases this with h | h | h <;> simp [h]
    · intro k hk; have := (m4 k).1 hk; rcases this with h | h | h | h <;> simp [h]
  intro u
  induction u with
  | nil => intro t s A B C D x y z q l a b m c L _ _ h; rcases A with _ | ⟨_, _ | ⟨_, _⟩⟩ <;> simp [Shape] at h
  | cons u us ih =>
    intro t s A B C D x y z q l a b m c L hlt hls hA hB hC hD okA okB okC okD okL hL fx fy fz fq gz gq
      fu ft fl fa fb fm gs gt gl ga gb gm hsL
    rcases t with _ | ⟨t, ts⟩
    · simp at hlt
    rcases s with _ | ⟨s, ss⟩
    · simp at hls
    rcases us with _ | ⟨u', us⟩
    · rcases ts with _ | ⟨t', ts⟩
      swap
      · simp at hlt
      rcases ss with _ | ⟨s', ss⟩
      swap
      · simp at hls
      obtain ⟨P0, hA1, rfl, hP⟩ := Shape.one hA
      obtain ⟨Q0, hB1, rfl, hQ⟩ := Shape.one hB
      obtain ⟨R0, hC1, rfl, hR⟩ := Shape.one hC
      obtain ⟨V0, hD1, rfl, hV⟩ := Shape.one hD
      obtain ⟨P, A', rfl, rfl, hA'⟩ := map_eq_cons' hA1
      obtain ⟨Q, B', rfl, rfl, hB'⟩ := map_eq_cons' hB1
      obtain ⟨R, C', rfl, rfl, hC'⟩ := map_eq_cons' hC1
      obtain ⟨V, D', rfl, rfl, hD'⟩ := map_eq_cons' hD1
      obtain rfl := List.map_eq_nil_iff.1 hA'
      obtain rfl := List.map_eq_nil_iff.1 hB'
      obtain rfl := List.map_eq_nil_iff.1 hC'
      obtain rfl := List.map_eq_nil_iff.1 hD'
      simp only [List.mem_cons, List.not_mem_nil, or_false] at hP hQ hR hV
      have hP' : ∀ k, k ∈ P.inds ↔ k = u ∨ x = some k ∨ none = some k := by simpa using hP
      have hQ' : ∀ k, k ∈ Q.inds ↔ (k = t ∨ k = u) ∨ y = some k ∨ none = some k := by simpa using hQ
      have hR' : ∀ k, k ∈ R.inds ↔ (k = t ∨ k = s) ∨ z = some k ∨ none = some k := by simpa using hR
      have hV' : ∀ k, k ∈ V.inds ↔ k = s ∨ q = some k ∨ none = some k := by simpa using hV
      exact col okL (okA P (by simp)) (okB Q (by simp)) (okC R (by simp)) (okD V (by simp)) hsL hP' hQ' hR' hV'
        (column_sizes (f := f) (g := g) (c := c) hL hP' hQ' hR' hV' fx fy fz fq gz gq (by simp) (by simp) (by simp) (by simp)
          (by simp) (by simp) fu.1 ft.1 gs.1 gt.1)
    · rcases ts with _ | ⟨t', ts⟩
      · simp at hlt
      rcases ss with _ | ⟨s', ss⟩
      · simp at hls
      obtain ⟨P0, A0, l0, ls, hA1, rfl, hP, hA2⟩ := Shape.more hA
      obtain ⟨Q0, B0, a0, as, hB1, rfl, hQ, hB2⟩ := Shape.more hB
      obtain ⟨R0, C0, b0, bs, hC1, rfl, hR, hC2⟩ := Shape.more hC
      obtain ⟨V0, D0, m0, ms, hD1, rfl, hV, hD2⟩ := Shape.more hD
      obtain ⟨P, A', rfl, rfl, rfl⟩ := map_eq_cons' hA1
      obtain ⟨Q, B', rfl, rfl, rfl⟩ := map_eq_cons' hB1
      obtain ⟨R, C', rfl, rfl, rfl⟩ := map_eq_cons' hC1
      obtain ⟨V, D', rfl, rfl, rfl⟩ := map_eq_cons' hD1
      have okP := okA P (by simp)
      have okQ := okB Q (by simp)
      have okR := okC R (by simp)
      have okV := okD V (by simp)
      simp only [List.mem_cons, List.not_mem_nil, or_false] at hP hQ hR hV
      have hP' : ∀ k, k ∈ P.inds ↔ k = u ∨ x = some k ∨ some l0 = some k := by simpa [eq_comm] using hP
      have hQ' : ∀ k, k ∈ Q.inds ↔ (k = t ∨ k = u) ∨ y = some k ∨ some a0 = some k := by simpa [eq_comm] using hQ
      have hR' : ∀ k, k ∈ R.inds ↔ (k = t ∨ k = s) ∨ z = some k ∨ some b0 = some k := by simpa [eq_comm] using hR
      have hV' : ∀ k, k ∈ V.inds ↔ k = s ∨ q = some k ∨ some m0 = some k := by simpa [eq_comm] using hV
      have hcol := column_sizes (ext := ext) (f := f) (g := g) (c := c) hL hP' hQ' hR' hV' fx fy fz fq gz gq (by simpa using fl.1)
        (by simpa using fa.1) (by simpa using gl.1) (by simpa using ga.1) (by simpa using gb.1) (by simpa using gm.1) fu.1 ft.1 gs.1 gt.1
      rw [interleave4]
      simp only [chainTree]
      refine ih (t' :: ts) (s' :: ss) A' B' C' D' (some l0) (some a0) (some b0) (some m0) ls as bs ms (c + 1)
        _ (by simpa using hlt) (by simpa using hls) hA2 hB2 hC2 hD2 (fun T hT => okA T (by simp [hT]))
        (fun T hT => okB T (by simp [hT])) (fun T hT => okC T (by simp [hT])) (fun T hT => okD T (by simp [hT]))
        (mul_ok ext (mul_ok ext (mul_ok ext (mul_ok ext okL okP) okQ) okR) okV) hcol.2.2.2 ?_ ?_ ?_ ?_ ?_ ?_
        fu.2 ft.2 fl.2 fa.2 fb.2 fm.2 gs.2 gt.2 gl.2 ga.2 gb.2 gm.2 (col okL okP okQ okR okV hsL hP' hQ' hR' hV' hcol)
      · simp only [Option.some.injEq]; rintro k rfl; have := fl.1; omega
      · simp only [Option.some.injEq]; rintro k rfl; have := fa.1; omega
      · simp only [Option.some.injEq]; rintro k rfl; have := fb.1; omega
      · simp only [Option.some.injEq]; rintro k rfl; have := fm.1; omega
      · simp only [Option.some.injEq]; rintro k rfl; have := gb.1; omega
      · simp only [Option.some.injEq]; rintro k rfl; have := gm.1; omega

end Verif.MPS
