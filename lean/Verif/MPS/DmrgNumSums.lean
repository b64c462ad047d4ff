import Verif.MPS.DmrgNum

/-! # The sums in the environments -/

noncomputable section

namespace Verif.DmrgNum

open Finset Verif.Limits

variable {𝕜 : Type*} [RCLike 𝕜]

/-- The triples of values of primed link, operator link and link. -/
def tri (a k c : Nat) : Finset (Nat × Nat × Nat) := range a ×ˢ range k ×ˢ range c

/-- One site of the network between the triples on its left and on its right. -/
def tr (W : Nat → Nat → Nat → Nat → 𝕜) (A' A : Site 𝕜) (x y : Nat × Nat × Nat) : 𝕜 :=
  ∑ s' ∈ range A'.d, ∑ s ∈ range A.d, (starRingEnd 𝕜) (A'.A x.1 s' y.1) * W x.2.1 s' s y.2.1 * A.A x.2.2 s y.2.2

theorem absL_eq (k : Nat) (W : Nat → Nat → Nat → Nat → 𝕜) (A' A : Site 𝕜) (E : Nat → Nat → Nat → 𝕜) (b' w' b : Nat) :
    absL k W A' A E b' w' b = ∑ x ∈ tri A'.l k A.l, E x.1 x.2.1 x.2.2 * tr W A' A x (b', w', b) := by
  unfold absL tri tr
  simp only [sum_product, sum_mul, mul_sum]
  refine sum_congr rfl fun a' _ => ?_
  rw [sum_comm]
  refine sum_congr rfl fun w _ => ?_
  rw [sum_comm (s := range A.l)]
  refine sum_congr rfl fun s' _ => ?_
  rw [sum_comm (s := range A.l)]
  refine sum_congr rfl fun s _ => sum_congr rfl fun a _ => ?_
  ring

theorem absR_eq (k : Nat) (W : Nat → Nat → Nat → Nat → 𝕜) (A' A : Site 𝕜) (E : Nat → Nat → Nat → 𝕜) (a' w a : Nat) :
    absR k W A' A E a' w a = ∑ y ∈ tri A'.r k A.r, tr W A' A (a', w, a) y * E y.1 y.2.1 y.2.2 := by
  unfold absR tri tr
  simp only [sum_product, sum_mul]
  refine sum_congr rfl fun b' _ => ?_
  rw [sum_comm]
  refine sum_congr rfl fun w' _ => ?_
  rw [sum_comm (s := range A.r)]
  refine sum_congr rfl fun s' _ => ?_
  rw [sum_comm (s := range A.r)]
  refine sum_congr rfl fun s _ => sum_congr rfl fun b _ => ?_
  ring

/-- Moving a site from the left to the right environment. -/
theorem pair_move (k k' : Nat) (W : Nat → Nat → Nat → Nat → 𝕜) (A' A : Site 𝕜) (L R : Nat → Nat → Nat → 𝕜) :
    ∑ y ∈ tri A'.r k' A.r, absL k W A' A L y.1 y.2.1 y.2.2 * R y.1 y.2.1 y.2.2 =
      ∑ x ∈ tri A'.l k A.l, L x.1 x.2.1 x.2.2 * absR k' W A' A R x.1 x.2.1 x.2.2 := by
  simp only [absL_eq, absR_eq, sum_mul, mul_sum]
  rw [sum_comm]
  refine sum_congr rfl fun x _ => sum_congr rfl fun y _ => by ring

/-! ## The two sites in the middle -/

/-- The elements of the projected operator. -/
def ker (k₀ k₁ k₂ : Nat) (W₁ W₂ : Nat → Nat → Nat → Nat → 𝕜) (L R : Nat → Nat → Nat → 𝕜) {l d₁ d₂ r : Nat} (i' i : Pl l d₁ d₂ r) : 𝕜 :=
  ∑ w ∈ range k₀, ∑ w₁ ∈ range k₁, ∑ w₂ ∈ range k₂,
    L i'.1 w i.1 * W₁ w i'.2.1 i.2.1 w₁ * W₂ w₁ i'.2.2.1 i.2.2.1 w₂ * R i'.2.2.2 w₂ i.2.2.2

theorem pull {α β : Type*} {S : Finset α} {T : Finset β} {f : α → 𝕜} {g : α → β → 𝕜} (h : ∀ x ∈ S, f x = ∑ a ∈ T, g x a) :
    ∑ x ∈ S, f x = ∑ a ∈ T, ∑ x ∈ S, g x a := by
  rw [sum_congr rfl h, sum_comm]

theorem product_some (k₀ k₁ k₂ : Nat) (W₁ W₂ : Nat → Nat → Nat → Nat → 𝕜) (L : EnvT 𝕜) (R : Option (EnvT 𝕜)) {l d₁ d₂ r : Nat} (x : Block 𝕜 l d₁ d₂ r)
    (i' : Pl l d₁ d₂ r) :
    product k₀ k₁ k₂ W₁ W₂ (some L) R x i' = ∑ i, ker k₀ k₁ k₂ W₁ W₂ L.val (valOf R) i' i * x i := by
  unfold product ker
  simp only [Fintype.sum_prod_type, sum_mul]
  refine (pull fun _ _ => pull fun _ _ => pull fun _ _ => pull fun _ _ => pull fun _ _ => pull fun _ _ => rfl).trans
    (sum_congr rfl fun a _ => ?_)
  refine (pull fun _ _ => pull fun _ _ => pull fun _ _ => pull fun _ _ => pull fun _ _ => rfl).trans (sum_congr rfl fun s₁ _ => ?_)
  refine (pull fun _ _ => pull fun _ _ => pull fun _ _ => rfl).trans (sum_congr rfl fun s₂ _ => ?_)
  refine (pull fun _ _ => rfl).trans (sum_congr rfl fun c _ => ?_)
  refine (pull fun _ _ => pull fun _ _ => rfl).trans (sum_congr rfl fun w _ => ?_)
  refine (pull fun _ _ => rfl).trans (sum_congr rfl fun w₁ _ => sum_congr rfl fun w₂ _ => ?_)
  ring

theorem product_none (k₁ k₂ : Nat) (W₁ W₂ : Nat → Nat → Nat → Nat → 𝕜) (R : Option (EnvT 𝕜)) {l d₁ d₂ r : Nat} (hl : l = 1) (x : Block 𝕜 l d₁ d₂ r)
    (i' : Pl l d₁ d₂ r) :
    product 1 k₁ k₂ W₁ W₂ none R x i' = ∑ i, ker 1 k₁ k₂ W₁ W₂ (fun _ _ _ => 1) (valOf R) i' i * x i := by
  subst hl
  obtain ⟨a', s₁', s₂', c'⟩ := i'
  obtain rfl : a' = 0 := Subsingleton.elim _ _
  unfold product ker
  simp only [Fintype.sum_prod_type, sum_mul, Finset.univ_unique, Finset.sum_singleton, Finset.range_one, Fin.default_eq_zero]
  refine (pull fun _ _ => rfl).trans (sum_congr rfl fun s₁ _ => ?_)
  refine (pull fun _ _ => pull fun _ _ => rfl).trans (sum_congr rfl fun s₂ _ => ?_)
  refine (pull fun _ _ => pull fun _ _ => rfl).trans (sum_congr rfl fun c _ => ?_)
  refine sum_congr rfl fun w₁ _ => sum_congr rfl fun w₂ _ => ?_
  ring

/-- The operator projected on two sites, as a linear map. -/
def effL {l d₁ d₂ r : Nat} (K : Pl l d₁ d₂ r → Pl l d₁ d₂ r → 𝕜) : Block 𝕜 l d₁ d₂ r →ₗ[𝕜] Block 𝕜 l d₁ d₂ r :=
  Matrix.toEuclideanLin (Matrix.of K)

theorem effL_apply {l d₁ d₂ r : Nat} (K : Pl l d₁ d₂ r → Pl l d₁ d₂ r → 𝕜) (x : Block 𝕜 l d₁ d₂ r) (i' : Pl l d₁ d₂ r) :
    effL K x i' = ∑ i, K i' i * x i := by
  simp [effL, Matrix.toLpLin_apply, Matrix.mulVec, dotProduct]

theorem inner_eff {l d₁ d₂ r : Nat} (K : Pl l d₁ d₂ r → Pl l d₁ d₂ r → 𝕜) (x y : Block 𝕜 l d₁ d₂ r) :
    inner 𝕜 x (effL K y) = ∑ i', ∑ i, (starRingEnd 𝕜) (x i') * K i' i * y i := by
  rw [PiLp.inner_apply]
  refine sum_congr rfl fun i' _ => ?_
  rw [effL_apply, RCLike.inner_apply, sum_mul]
  refine sum_congr rfl fun i _ => ?_
  ring

/-- An element of the product of two tensors. -/
def bval (A B : Site 𝕜) (a s₁ s₂ c : Nat) : 𝕜 := ∑ m ∈ range A.r, A.A a s₁ m * B.A m s₂ c

theorem tr_tr (k₁ : Nat) (W₁ W₂ : Nat → Nat → Nat → Nat → 𝕜) (A' B' A B : Site 𝕜) (x z : Nat × Nat × Nat) :
    ∑ y ∈ tri A'.r k₁ A.r, tr W₁ A' A x y * tr W₂ B' B y z =
      ∑ s₁' ∈ range A'.d, ∑ s₁ ∈ range A.d, ∑ s₂' ∈ range B'.d, ∑ s₂ ∈ range B.d, ∑ w₁ ∈ range k₁,
        (starRingEnd 𝕜) (bval A' B' x.1 s₁' s₂' z.1) * (W₁ x.2.1 s₁' s₁ w₁ * W₂ w₁ s₂' s₂ z.2.1) * bval A B x.2.2 s₁ s₂ z.2.2 := by
  unfold tri tr bval
  simp only [sum_product, map_sum, map_mul, sum_mul, mul_sum]
  refine (pull fun _ _ => pull fun _ _ => pull fun _ _ => pull fun _ _ => pull fun _ _ => rfl).trans (sum_congr rfl fun s₁' _ => ?_)
  refine (pull fun _ _ => pull fun _ _ => pull fun _ _ => pull fun _ _ => pull fun _ _ => rfl).trans (sum_congr rfl fun s₁ _ => ?_)
  refine (pull fun _ _ => pull fun _ _ => pull fun _ _ => rfl).trans (sum_congr rfl fun s₂' _ => ?_)
  refine (pull fun _ _ => pull fun _ _ => pull fun _ _ => rfl).trans (sum_congr rfl fun s₂ _ => ?_)
  refine (pull fun _ _ => rfl).trans (sum_congr rfl fun w₁ _ => ?_)
  refine (pull fun _ _ => rfl).trans (sum_congr rfl fun m _ => sum_congr rfl fun m' _ => ?_)
  ring

theorem sum_tri (a k c : Nat) (f : Nat × Nat × Nat → 𝕜) : ∑ x ∈ tri a k c, f x = ∑ i ∈ range a, ∑ w ∈ range k, ∑ j ∈ range c, f (i, w, j) := by
  unfold tri
  rw [sum_product]
  exact sum_congr rfl fun _ _ => sum_product _ _ _

theorem sum_pl {l d₁ d₂ r : Nat} (f : Pl l d₁ d₂ r → 𝕜) : ∑ i, f i = ∑ a, ∑ s₁, ∑ s₂, ∑ c, f (a, s₁, s₂, c) := by
  rw [Fintype.sum_prod_type]
  refine sum_congr rfl fun _ _ => ?_
  rw [Fintype.sum_prod_type]
  exact sum_congr rfl fun _ _ => Fintype.sum_prod_type _

/-- The network with two sites in the middle, by elements of their products. -/
theorem two_sites (k₀ k₁ k₂ : Nat) (W₁ W₂ : Nat → Nat → Nat → Nat → 𝕜) (L R : Nat → Nat → Nat → 𝕜) {l d₁ d₂ r : Nat} {A' B' A B : Site 𝕜}
    (e1 : A'.l = l) (e2 : A.l = l) (e3 : A'.d = d₁) (e4 : A.d = d₁) (e5 : B'.d = d₂) (e6 : B.d = d₂) (e7 : B'.r = r) (e8 : B.r = r)
    (f1 : A'.r = B'.l) (f2 : A.r = B.l) (x' x : Block 𝕜 l d₁ d₂ r)
    (hx' : ∀ i : Pl l d₁ d₂ r, x' i = bval A' B' i.1 i.2.1 i.2.2.1 i.2.2.2)
    (hx : ∀ i : Pl l d₁ d₂ r, x i = bval A B i.1 i.2.1 i.2.2.1 i.2.2.2) :
    ∑ z ∈ tri B'.r k₂ B.r, absL k₁ W₂ B' B (absL k₀ W₁ A' A L) z.1 z.2.1 z.2.2 * R z.1 z.2.1 z.2.2 =
      inner 𝕜 x' (effL (ker k₀ k₁ k₂ W₁ W₂ L R) x) := by
  have h1 : ∀ z : Nat × Nat × Nat, absL k₁ W₂ B' B (absL k₀ W₁ A' A L) z.1 z.2.1 z.2.2 * R z.1 z.2.1 z.2.2 =
      ∑ y ∈ tri A'.l k₀ A.l, L y.1 y.2.1 y.2.2 * (∑ s₁' ∈ range d₁, ∑ s₁ ∈ range d₁, ∑ s₂' ∈ range d₂, ∑ s₂ ∈ range d₂, ∑ w₁ ∈ range k₁,
        (starRingEnd 𝕜) (bval A' B' y.1 s₁' s₂' z.1) * (W₁ y.2.1 s₁' s₁ w₁ * W₂ w₁ s₂' s₂ z.2.1) * bval A B y.2.2 s₁ s₂ z.2.2) * R z.1 z.2.1 z.2.2 := by
    intro z
    have := fun y => tr_tr k₁ W₁ W₂ A' B' A B y z
    rw [e3, e4, e5, e6] at this
    simp only [← this]
    rw [absL_eq, sum_mul]
    simp only [absL_eq, sum_mul, mul_sum]
    rw [← f1, ← f2, sum_comm]
    exact sum_congr rfl fun y _ => sum_congr rfl fun x _ => by ring
  have h2 : ∀ z : Nat × Nat × Nat, absL k₁ W₂ B' B (absL k₀ W₁ A' A L) z.1 z.2.1 z.2.2 * R z.1 z.2.1 z.2.2 =
      ∑ y ∈ tri A'.l k₀ A.l, ∑ s₁' ∈ range d₁, ∑ s₁ ∈ range d₁, ∑ s₂' ∈ range d₂, ∑ s₂ ∈ range d₂, ∑ w₁ ∈ range k₁,
        (starRingEnd 𝕜) (bval A' B' y.1 s₁' s₂' z.1) * (L y.1 y.2.1 y.2.2 * W₁ y.2.1 s₁' s₁ w₁ * W₂ w₁ s₂' s₂ z.2.1 * R z.1 z.2.1 z.2.2) *
          bval A B y.2.2 s₁ s₂ z.2.2 := by
    intro z
    rw [h1]
    refine sum_congr rfl fun y _ => ?_
    simp only [mul_sum, sum_mul]
    refine sum_congr rfl fun _ _ => sum_congr rfl fun _ _ => sum_congr rfl fun _ _ => sum_congr rfl fun _ _ => sum_congr rfl fun _ _ => ?_
    ring
  have h3 : ∀ i' i : Pl l d₁ d₂ r, (starRingEnd 𝕜) (x' i') * ker k₀ k₁ k₂ W₁ W₂ L R i' i * x i =
      ∑ w ∈ range k₀, ∑ w₁ ∈ range k₁, ∑ w₂ ∈ range k₂, (starRingEnd 𝕜) (bval A' B' i'.1 i'.2.1 i'.2.2.1 i'.2.2.2) *
        (L i'.1 w i.1 * W₁ w i'.2.1 i.2.1 w₁ * W₂ w₁ i'.2.2.1 i.2.2.1 w₂ * R i'.2.2.2 w₂ i.2.2.2) * bval A B i.1 i.2.1 i.2.2.1 i.2.2.2 := by
    intro i' i
    rw [hx', hx, ker]
    simp only [mul_sum, sum_mul]
  rw [inner_eff, sum_congr rfl fun z _ => h2 z, e1, e2, e7, e8]
  simp only [h3]
  rw [sum_tri, sum_pl]
  refine (pull fun _ _ => pull fun _ _ => pull fun _ _ => sum_tri _ _ _ _).trans ((Finset.sum_range _).trans (sum_congr rfl fun a' _ => ?_))
  refine (pull fun _ _ => pull fun _ _ => pull fun _ _ => pull fun _ _ => pull fun _ _ => rfl).trans ((Finset.sum_range _).trans (sum_congr rfl fun s₁' _ => ?_))
  refine (pull fun _ _ => pull fun _ _ => pull fun _ _ => pull fun _ _ => pull fun _ _ => pull fun _ _ => rfl).trans ((Finset.sum_range _).trans (sum_congr rfl fun s₂' _ => ?_))
  refine (Finset.sum_range _).trans (sum_congr rfl fun c' _ => ?_)
  rw [sum_pl]
  refine (pull fun _ _ => pull fun _ _ => pull fun _ _ => rfl).trans ((Finset.sum_range _).trans (sum_congr rfl fun a _ => ?_))
  refine (pull fun _ _ => pull fun _ _ => pull fun _ _ => rfl).trans ((Finset.sum_range _).trans (sum_congr rfl fun s₁ _ => ?_))
  refine (pull fun _ _ => pull fun _ _ => pull fun _ _ => rfl).trans ((Finset.sum_range _).trans (sum_congr rfl fun s₂ _ => ?_))
  refine (pull fun _ _ => rfl).trans ((Finset.sum_range _).trans (sum_congr rfl fun c _ => ?_))
  refine (pull fun _ _ => rfl).trans (sum_congr rfl fun w _ => ?_)
  refine (pull fun _ _ => rfl).trans (sum_congr rfl fun w₁ _ => ?_)
  refine (sum_congr rfl fun w₂ _ => ?_)
  rfl

end Verif.DmrgNum
