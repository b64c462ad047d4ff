import Verif.QDense.AddProps
import Verif.Tensor.ContractProps

/-!
# Index sets seen through labels

A labelling gives every index of a product an integer; the sector sizes then become a function of the
label, and blocks, positions inside blocks and elements become assignments of numbers to labels.
-/

namespace Verif.QDense

open Verif Verif.Tensor Verif.Index Finset

/-- The value the list `l`, laid out as `xs`, gives the label `x`. -/
def val (xs : List Int) (l : List Nat) (x : Int) : Nat := l.getD (xs.idxOf x) 0

theorem val_map {xs : List Int} (hnd : xs.Nodup) {l : List Nat} (h : l.length = xs.length) :
    xs.map (val xs l) = l := by
  apply List.ext_getElem (by simp [h])
  intro i h1 h2
  have hi : i < xs.length := by simpa using h1
  rw [List.getElem_map, val, hnd.idxOf_getElem i hi]
  simp [List.getD_eq_getElem?_getD, h2]

theorem val_get {xs : List Int} {β : Int → Nat} {x : Int} (hx : x ∈ xs) :
    val xs (xs.map β) x = β x := by
  have hi : xs.idxOf x < xs.length := List.idxOf_lt_length_iff.2 hx
  simp only [val, List.getD_eq_getElem?_getD, List.getElem?_map, List.getElem?_eq_getElem hi,
    Option.map_some, Option.getD_some, List.getElem_idxOf]

/-- The sector sizes of `is`, laid out as the labels `xs`, are given by `sz`. -/
def Lab (sz : Int → List Nat) (is : IndexSet) (xs : List Int) : Prop := is.map szs = xs.map sz

/-- Number of sectors of a label. -/
def lnb (sz : Int → List Nat) (x : Int) : Nat := (sz x).length

/-- Size of the sector of a label chosen by `β`. -/
def lext (sz : Int → List Nat) (β : Int → Nat) (x : Int) : Nat := (sz x).getD (β x) 0

/-- Value of an index from its sector and the position inside. -/
def lgl (sz : Int → List Nat) (β υ : Int → Nat) (x : Int) : Nat := ((sz x).take (β x)).sum + υ x

/-- Dimension of a label. -/
def ldim (sz : Int → List Nat) (x : Int) : Nat := (sz x).sum

variable {sz : Int → List Nat} {is : IndexSet} {xs : List Int}

theorem Lab.length (h : Lab sz is xs) : is.length = xs.length := by
  have := congrArg List.length h
  simpa using this

theorem Lab.nb (h : Lab sz is xs) : nb is = xs.map (lnb sz) := by
  have : QDense.nb is = (is.map szs).map List.length := by
    simp [QDense.nb, Function.comp_def, szs_length]
  rw [this, h, List.map_map]
  rfl

theorem Lab.dims (h : Lab sz is xs) : dims is = xs.map (ldim sz) := by
  have : QDense.dims is = (is.map szs).map List.sum := by simp [QDense.dims, Function.comp_def]
  rw [this, h, List.map_map]
  rfl

theorem Lab.bext (h : Lab sz is xs) (β : Int → Nat) : bext is (xs.map β) = xs.map (lext sz β) := by
  have h1 : QDense.bext is (xs.map β) = List.zipWith (fun l b => l.getD b 0) (is.map szs) (xs.map β) := by
    rw [List.zipWith_map_left]; rfl
  rw [h1, h, List.zipWith_map, List.zipWith_self]
  rfl

theorem Lab.cons {I : Index} {x : Int} (h : Lab sz (I :: is) (x :: xs)) : szs I = sz x ∧ Lab sz is xs := by
  unfold Lab at h ⊢
  simpa using h

theorem Lab.glue (h : Lab sz is xs) (β υ : Int → Nat) :
    glue is (xs.map β) (xs.map υ) = xs.map (lgl sz β υ) := by
  induction is generalizing xs with
  | nil =>
    have := h.length
    cases xs with
    | nil => rfl
    | cons => simp at this
  | cons I is ih =>
    cases xs with
    | nil => have := h.length; simp at this
    | cons x xs =>
      obtain ⟨h1, h2⟩ := h.cons
      simp only [List.map_cons, QDense.glue]
      rw [ih h2]
      simp [gl, lgl, h1]

theorem valid_map {f g : Int → Nat} {xs : List Int} : Valid (xs.map f) (xs.map g) ↔ ∀ x ∈ xs, g x < f x := by
  induction xs with
  | nil => simp [Valid]
  | cons x xs ih =>
    unfold Valid at ih ⊢
    simp [ih]

/-- Every valuation comes from sectors and positions inside them. -/
theorem exists_lgl (sz : Int → List Nat) (S : Int → Prop) (ρ : Int → Nat)
    (h : ∀ x, S x → ρ x < ldim sz x) : ∃ β υ : Int → Nat, (∀ x, S x → β x < lnb sz x) ∧
      (∀ x, S x → υ x < lext sz β x) ∧ ∀ x, S x → lgl sz β υ x = ρ x := by
  have : ∀ x, ∃ p : Nat × Nat, S x → p.1 < (sz x).length ∧ p.2 < (sz x).getD p.1 0 ∧
      ((sz x).take p.1).sum + p.2 = ρ x := by
    intro x
    by_cases hx : S x
    · obtain ⟨b, u, h1, h2, h3⟩ := exists_gl (sz x) (ρ x) (h x hx)
      exact ⟨(b, u), fun _ => ⟨h1, h2, h3.symm⟩⟩
    · exact ⟨(0, 0), fun h => absurd h hx⟩
  choose p hp using this
  exact ⟨fun x => (p x).1, fun x => (p x).2, fun x hx => (hp x hx).1, fun x hx => (hp x hx).2.1,
    fun x hx => (hp x hx).2.2⟩

section
variable {K : Type*} [CommRing K]

/-- A sum over a range cut into sectors. -/
theorem sum_sectors (l : List Nat) (f : Nat → K) :
    ∑ v ∈ range l.sum, f v = ∑ b ∈ range l.length, ∑ u ∈ range (l.getD b 0), f ((l.take b).sum + u) := by
  induction l generalizing f with
  | nil => simp
  | cons n l ih =>
    rw [List.sum_cons, sum_range_add, ih, List.length_cons, sum_range_succ']
    rw [add_comm]
    congr 1
    · refine sum_congr rfl fun b _ => ?_
      simp only [List.getD_cons_succ, List.take_succ_cons, List.sum_cons]
      refine sum_congr rfl fun u _ => ?_
      rw [Nat.add_assoc]
    · simp

theorem sumOver_congr {X : Type*} [DecidableEq X] {ext ext' : X → Nat} {cs : List X} {F G : (X → Nat) → K}
    {ρ : X → Nat} (he : ∀ x ∈ cs, ext x = ext' x)
    (h : ∀ σ : X → Nat, (∀ x ∈ cs, σ x < ext x) → (∀ x, x ∉ cs → σ x = ρ x) → F σ = G σ)
    (hnd : cs.Nodup) :
    sumOver ext cs F ρ = sumOver ext' cs G ρ := by
  induction cs generalizing ρ with
  | nil => exact h ρ (by simp) (by simp)
  | cons x cs ih =>
    simp only [sumOver]
    rw [← he x (by simp)]
    refine sum_congr rfl fun v hv => ?_
    obtain ⟨hx, hnd'⟩ := List.nodup_cons.1 hnd
    refine ih (fun y hy => he y (by simp [hy])) (fun σ h1 h2 => ?_) hnd'
    have hσx : σ x = v := by rw [h2 x hx, Function.update_self]
    refine h σ ?_ ?_
    · intro y hy
      rcases List.mem_cons.1 hy with rfl | hy
      · rw [hσx]; exact mem_range.1 hv
      · exact h1 y hy
    · intro y hy
      rw [h2 y (fun hc => hy (by simp [hc])), Function.update_of_ne]
      rintro rfl
      exact hy (by simp)

theorem sumOver_finset_sum {X ι : Type*} [DecidableEq X] {ext : X → Nat} {cs : List X} (s : Finset ι)
    (F : ι → (X → Nat) → K) (ρ : X → Nat) :
    sumOver ext cs (fun σ => ∑ i ∈ s, F i σ) ρ = ∑ i ∈ s, sumOver ext cs (F i) ρ := by
  induction cs generalizing ρ with
  | nil => rfl
  | cons x cs ih =>
    simp only [sumOver]
    rw [sum_comm]
    exact sum_congr rfl fun v _ => ih _

/-- Summing over the values of the labels `cs` is summing over their sectors and the positions inside
the sectors. -/
theorem sumOver_sectors (sz : Int → List Nat) {cs : List Int} (hnd : cs.Nodup) (F : (Int → Nat) → K)
    (β υ : Int → Nat) :
    sumOver (ldim sz) cs F (lgl sz β υ) =
      sumOver (lnb sz) cs (fun β' => sumOver (lext sz β') cs (fun υ' => F (lgl sz β' υ')) υ) β := by
  induction cs generalizing β υ with
  | nil => rfl
  | cons x cs ih =>
    obtain ⟨hx, hnd'⟩ := List.nodup_cons.1 hnd
    simp only [sumOver]
    rw [ldim, sum_sectors]
    refine sum_congr rfl fun b _ => ?_
    have e : ∀ u, Function.update (lgl sz β υ) x (((sz x).take b).sum + u) =
        lgl sz (Function.update β x b) (Function.update υ x u) := by
      intro u
      funext y
      by_cases hy : y = x
      · subst hy; simp [lgl]
      · simp [lgl, hy]
    have e1 : ∀ u, sumOver (ldim sz) cs F (Function.update (lgl sz β υ) x (((sz x).take b).sum + u)) =
        sumOver (lnb sz) cs (fun β' => sumOver (lext sz β') cs (fun υ' => F (lgl sz β' υ'))
          (Function.update υ x u)) (Function.update β x b) := fun u => by rw [e u, ih hnd']
    simp only [e1]
    rw [← sumOver_finset_sum]
    refine sumOver_congr (fun _ _ => rfl) (fun σ _ h2 => ?_) hnd'
    have : σ x = b := by rw [h2 x hx, Function.update_self]
    rw [lext, this]

/-- The assignments a sum over labels runs through, as a list. -/
def assigns {X : Type*} [DecidableEq X] (ext : X → Nat) : List X → (X → Nat) → List (X → Nat)
  | [], ρ => [ρ]
  | x :: cs, ρ => (List.range (ext x)).flatMap fun v => assigns ext cs (Function.update ρ x v)

theorem sumOver_assigns {X : Type*} [DecidableEq X] (ext : X → Nat) (cs : List X) (F : (X → Nat) → K)
    (ρ : X → Nat) : sumOver ext cs F ρ = ((assigns ext cs ρ).map F).sum := by
  induction cs generalizing ρ with
  | nil => simp [sumOver, assigns]
  | cons x cs ih =>
    have hs : ∀ n (g : Nat → K) (A : Nat → List (X → Nat)), (∀ v, g v = ((A v).map F).sum) →
        ∑ i ∈ range n, g i = (((List.range n).flatMap A).map F).sum := by
      intro n g A hA
      induction n with
      | zero => simp
      | succ n ih =>
        rw [List.range_succ, List.flatMap_append, List.map_append, List.sum_append, ← ih, sum_range_succ, hA n]
        simp
    exact hs _ _ _ fun v => ih _

theorem mem_assigns {X : Type*} [DecidableEq X] {ext : X → Nat} {cs : List X} (hnd : cs.Nodup) {ρ σ : X → Nat} :
    σ ∈ assigns ext cs ρ ↔ (∀ x ∈ cs, σ x < ext x) ∧ ∀ x, x ∉ cs → σ x = ρ x := by
  induction cs generalizing ρ with
  | nil =>
    simp only [assigns, List.mem_singleton, List.not_mem_nil, not_false_eq_true, forall_const,
      false_implies, implies_true, true_and]
    exact ⟨fun h x => by rw [h], fun h => funext h⟩
  | cons y cs ih =>
    obtain ⟨hy, hnd'⟩ := List.nodup_cons.1 hnd
    simp only [assigns, List.mem_flatMap, List.mem_range, ih hnd']
    constructor
    · rintro ⟨v, hv, h1, h2⟩
      have hyv : σ y = v := by rw [h2 y hy, Function.update_self]
      constructor
      · intro x hx
        rcases List.mem_cons.1 hx with rfl | hx
        · rw [hyv]; exact hv
        · exact h1 x hx
      · intro x hx
        rw [h2 x (fun h => hx (by simp [h])), Function.update_of_ne]
        rintro rfl; exact hx (by simp)
    · rintro ⟨h1, h2⟩
      refine ⟨σ y, h1 y (by simp), fun x hx => h1 x (by simp [hx]), fun x hx => ?_⟩
      by_cases hxy : x = y
      · subst hxy; rw [Function.update_self]
      · rw [Function.update_of_ne hxy, h2 x (by simp [hxy, hx])]

theorem assigns_nodup {X : Type*} [DecidableEq X] (ext : X → Nat) {cs : List X} (hnd : cs.Nodup) (ρ : X → Nat) :
    (assigns ext cs ρ).Nodup := by
  induction cs generalizing ρ with
  | nil => simp [assigns]
  | cons y cs ih =>
    obtain ⟨hy, hnd'⟩ := List.nodup_cons.1 hnd
    simp only [assigns]
    rw [List.nodup_flatMap]
    refine ⟨fun v _ => ih hnd' _, ?_⟩
    refine List.nodup_range.imp ?_
    intro v w hvw
    rw [Function.onFun, List.disjoint_left]
    intro σ h1 h2
    have e1 := ((mem_assigns hnd').1 h1).2 y hy
    have e2 := ((mem_assigns hnd').1 h2).2 y hy
    rw [Function.update_self] at e1 e2
    exact hvw (e1.symm.trans e2)

end

end Verif.QDense
