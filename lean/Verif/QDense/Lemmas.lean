import Verif.QDense.Model
import Verif.Tensor.RangeProps

/-!
# Helper lemmas on block-sparse storage
-/

namespace Verif.QDense

open Verif.Index (Index IndexSet)
open Verif.Tensor

/-! ## Block order -/

theorem lexLt_irrefl (a : List Nat) : lexLt a a = false := by
  induction a with
  | nil => rfl
  | cons x a ih => simp [lexLt, ih]

theorem lexLt_trans {a b c : List Nat} (h1 : lexLt a b = true) (h2 : lexLt b c = true) :
    lexLt a c = true := by
  induction a generalizing b c with
  | nil =>
    cases c with
    | nil => cases b <;> simp [lexLt] at h2
    | cons z c => rfl
  | cons x a ih =>
    cases b with
    | nil => simp [lexLt] at h1
    | cons y b =>
      cases c with
      | nil => simp [lexLt] at h2
      | cons z c =>
        simp only [lexLt] at h1 h2 ⊢
        split at h1
        · split at h2
          · rw [if_pos (by omega)]
          · split at h2
            · simp at h2
            · rw [if_pos (by omega)]
        · split at h1
          · simp at h1
          · have hxy : x = y := by omega
            subst hxy
            split at h2
            · rw [if_pos (by assumption)]
            · split at h2
              · simp at h2
              · rw [if_neg (by assumption), if_neg (by assumption)]
                exact ih h1 h2

theorem lexLt_total {a b : List Nat} (h1 : lexLt a b = false) (h2 : lexLt b a = false) : a = b := by
  induction a generalizing b with
  | nil =>
    cases b with
    | nil => rfl
    | cons y b => simp [lexLt] at h1
  | cons x a ih =>
    cases b with
    | nil => simp [lexLt] at h2
    | cons y b =>
      simp only [lexLt] at h1 h2
      by_cases hxy : x < y
      · rw [if_pos hxy] at h1; simp at h1
      · by_cases hyx : y < x
        · rw [if_pos hyx] at h2; simp at h2
        · rw [if_neg hxy, if_neg hyx] at h1
          rw [if_neg hyx, if_neg hxy] at h2
          have : x = y := by omega
          rw [this, ih h1 h2]

theorem blockLt_irrefl (a : Block) : blockLt a a = false := lexLt_irrefl _

theorem blockLt_trans {a b c : Block} (h1 : blockLt a b = true) (h2 : blockLt b c = true) :
    blockLt a c = true := lexLt_trans h1 h2

theorem blockLt_total {a b : Block} (h1 : blockLt a b = false) (h2 : blockLt b a = false) : a = b :=
  List.reverse_inj.1 (lexLt_total h1 h2)

theorem blockLt_asymm {a b : Block} (h : blockLt a b = true) : blockLt b a = false := by
  rw [Bool.eq_false_iff]
  intro h'
  have := blockLt_trans h h'
  rw [blockLt_irrefl] at this
  exact absurd this (by simp)

theorem blockGt_eq (a b : Block) : blockGt a b = blockLt b a := by
  unfold blockGt
  cases h : blockLt b a with
  | true =>
    rw [blockLt_asymm h]
    have : a ≠ b := by rintro rfl; rw [blockLt_irrefl] at h; exact absurd h (by simp)
    simp [this]
  | false =>
    cases h' : blockLt a b with
    | true => rfl
    | false =>
      have := blockLt_total h' h
      simp [this]

theorem lexLt_append (x y : List Nat) (h : x.length = y.length) (i j : Nat) :
    lexLt (x ++ [i]) (y ++ [j]) = true ↔ lexLt x y = true ∨ (x = y ∧ i < j) := by
  induction x generalizing y with
  | nil =>
    have : y = [] := by simpa using h.symm
    subst this
    simp only [List.nil_append, lexLt]
    by_cases hij : i < j
    · simp [hij]
    · simp only [hij, if_false]
      split <;> simp
  | cons a x ih =>
    cases y with
    | nil => simp at h
    | cons b y =>
      simp only [List.cons_append, lexLt]
      by_cases hab : a < b
      · simp [hab]
      · by_cases hba : b < a
        · simp only [hab, hba, if_false, if_true, Bool.false_eq_true, false_or, false_iff, not_and]
          intro e
          simp only [List.cons.injEq] at e
          omega
        · have hab' : a = b := by omega
          subst hab'
          simp only [hab, if_false]
          rw [ih y (by simpa using h)]
          simp

theorem blockLt_iff_rank {ds i j : List Nat} (hi : Valid ds i) (hj : Valid ds j) :
    blockLt i j = true ↔ rank ds i < rank ds j := by
  induction ds generalizing i j with
  | nil => cases hi; cases hj; simp [blockLt, lexLt]
  | cons d ds ih =>
    cases hi with
    | cons h1 hi =>
      cases hj with
      | cons h2 hj =>
        rename_i x is y js
        have hlen : is.reverse.length = js.reverse.length := by
          have := valid_length hi; have := valid_length hj; simp; omega
        unfold blockLt
        rw [List.reverse_cons, List.reverse_cons, lexLt_append _ _ hlen]
        rw [show lexLt is.reverse js.reverse = blockLt is js from rfl, ih hi hj]
        simp only [rank, List.reverse_inj]
        constructor
        · rintro (h | ⟨rfl, h⟩)
          · have : d * rank ds is + d ≤ d * rank ds js := by
              calc d * rank ds is + d = d * (rank ds is + 1) := by ring
                _ ≤ _ := Nat.mul_le_mul_left _ h
            omega
          · omega
        · intro h
          by_cases hlt : rank ds is < rank ds js
          · exact Or.inl hlt
          · right
            by_cases hgt : rank ds js < rank ds is
            · exfalso
              have : d * rank ds js + d ≤ d * rank ds is := by
                calc d * rank ds js + d = d * (rank ds js + 1) := by ring
                  _ ≤ _ := Nat.mul_le_mul_left _ hgt
              omega
            · have he : rank ds is = rank ds js := by omega
              have : is = js := by rw [← unrank_rank hi, ← unrank_rank hj, he]
              subst this
              exact ⟨rfl, by omega⟩

theorem allInds_sorted (ds : List Nat) : (allInds ds).Pairwise (fun a b => blockLt a b = true) := by
  unfold allInds
  rw [List.pairwise_map]
  have : (List.range ds.prod).Pairwise (fun a b => a < b ∧ a < ds.prod ∧ b < ds.prod) := by
    have h1 := List.pairwise_lt_range (n := ds.prod)
    refine List.Pairwise.imp_of_mem ?_ h1
    intro a b ha hb hab
    exact ⟨hab, List.mem_range.1 ha, List.mem_range.1 hb⟩
  refine this.imp ?_
  rintro a b ⟨h, ha, hb⟩
  rw [blockLt_iff_rank (unrank_valid ha) (unrank_valid hb), rank_unrank ha, rank_unrank hb]
  exact h

/-! ## Binary search -/

theorem bound_spec (p : BlOf → Bool) (l : List BlOf)
    (hp : ∀ i j : Nat, i ≤ j → ∀ x y, l[i]? = some x → l[j]? = some y → p y = true → p x = true) :
    ∀ (f len : Nat), f + len ≤ l.length → (∀ i x, i < f → l[i]? = some x → p x = true) →
      (∀ i x, f + len ≤ i → l[i]? = some x → p x = false) →
      bound p l f len ≤ l.length ∧ (∀ i x, i < bound p l f len → l[i]? = some x → p x = true) ∧
      (∀ i x, bound p l f len ≤ i → l[i]? = some x → p x = false) := by
  intro f len
  induction len using Nat.strong_induction_on generalizing f with
  | _ len ih =>
    intro hl h1 h2
    unfold bound
    by_cases h0 : len = 0
    · rw [if_pos h0]
      subst h0
      exact ⟨by omega, h1, h2⟩
    · rw [if_neg h0]
      have hlt : f + len / 2 < l.length := by omega
      rw [List.getElem?_eq_getElem hlt]
      dsimp only
      cases hq : p l[f + len / 2] with
      | true =>
        rw [if_pos rfl]
        apply ih _ (by omega) _ (by omega)
        · intro i x hi hx
          by_cases hi' : i ≤ f + len / 2
          · exact hp i (f + len / 2) hi' x _ hx (List.getElem?_eq_getElem hlt) hq
          · omega
        · intro i x hi hx
          exact h2 i x (by omega) hx
      | false =>
        rw [if_neg (by simp)]
        apply ih _ (by omega) _ (by omega) h1
        intro i x hi hx
        cases hx' : p x with
        | false => rfl
        | true =>
          have := hp (f + len / 2) i hi _ x (List.getElem?_eq_getElem hlt) hx hx'
          rw [this] at hq; exact absurd hq (by simp)

/-- The offsets list is strictly sorted by block. -/
def SortedOff (l : List BlOf) : Prop := l.Pairwise (fun a b => blockLt a.block b.block = true)

theorem SortedOff.get {l : List BlOf} (h : SortedOff l) {i j : Nat} {x y : BlOf} (hij : i < j)
    (hi : l[i]? = some x) (hj : l[j]? = some y) : blockLt x.block y.block = true := by
  obtain ⟨h1, rfl⟩ := List.getElem?_eq_some_iff.1 hi
  obtain ⟨h2, rfl⟩ := List.getElem?_eq_some_iff.1 hj
  exact List.pairwise_iff_getElem.1 h i j h1 h2 hij

theorem lower_spec {l : List BlOf} (h : SortedOff l) (b : Block) :
    lowerBound l b ≤ l.length ∧ (∀ i x, i < lowerBound l b → l[i]? = some x → blockLt x.block b = true) ∧
      (∀ i x, lowerBound l b ≤ i → l[i]? = some x → blockLt x.block b = false) := by
  apply bound_spec _ l _ 0 l.length (by omega) (by intro i x h; omega)
  · intro i x hi hx
    have := (List.getElem?_eq_some_iff.1 hx).1
    omega
  · intro i j hij x y hx hy hlt
    rcases Nat.lt_or_ge i j with h' | h'
    · exact blockLt_trans (h.get h' hx hy) hlt
    · have : i = j := by omega
      subst this
      rw [hx] at hy; cases hy; exact hlt

theorem upper_spec {l : List BlOf} (h : SortedOff l) (b : Block) :
    upperBound l b ≤ l.length ∧ (∀ i x, i < upperBound l b → l[i]? = some x → blockLt b x.block = false) ∧
      (∀ i x, upperBound l b ≤ i → l[i]? = some x → blockLt b x.block = true) := by
  have := bound_spec (fun x => !blockLt b x.block) l (by
    intro i j hij x y hx hy hlt
    simp only [Bool.not_eq_true'] at hlt ⊢
    rcases Nat.lt_or_ge i j with h' | h'
    · rw [Bool.eq_false_iff]; intro hb
      rw [blockLt_trans hb (h.get h' hx hy)] at hlt
      exact absurd hlt (by simp)
    · have : i = j := by omega
      subst this
      rw [hx] at hy; cases hy; exact hlt) 0 l.length (by omega) (by intro i x h; omega) (by
      intro i x hi hx
      have := (List.getElem?_eq_some_iff.1 hx).1
      omega)
  simpa [upperBound] using this

/-- `lower_bound` finds the position of a block that is there. -/
theorem lowerBound_mem {l : List BlOf} (h : SortedOff l) {k : Nat} {x : BlOf} (hk : l[k]? = some x) :
    lowerBound l x.block = k := by
  obtain ⟨h0, h1, h2⟩ := lower_spec h x.block
  rcases Nat.lt_trichotomy (lowerBound l x.block) k with hlt | he | hgt
  · exfalso
    obtain ⟨y, hy⟩ : ∃ y, l[lowerBound l x.block]? = some y :=
      ⟨_, List.getElem?_eq_getElem (by have := (List.getElem?_eq_some_iff.1 hk).1; omega)⟩
    have := h2 _ y (Nat.le_refl _) hy
    rw [h.get hlt hy hk] at this
    exact absurd this (by simp)
  · exact he
  · exfalso
    have := h1 k x hgt hk
    rw [blockLt_irrefl] at this
    exact absurd this (by simp)

theorem offsetOf_mem {l : List BlOf} (h : SortedOff l) {x : BlOf} (hx : x ∈ l) :
    offsetOf l x.block = some x.offset := by
  obtain ⟨k, hk⟩ := List.mem_iff_getElem?.1 hx
  have hlb := lowerBound_mem h hk
  obtain ⟨_, _, h2⟩ := upper_spec h x.block
  have hub : upperBound l x.block ≠ k := by
    intro he
    have := h2 k x (by omega) hk
    rw [blockLt_irrefl] at this
    exact absurd this (by simp)
  unfold offsetOf
  rw [hlb, if_pos (fun e => hub e.symm), hk]
  rfl

theorem offsetOf_notMem {l : List BlOf} (h : SortedOff l) {b : Block} (hb : ∀ x ∈ l, x.block ≠ b) :
    offsetOf l b = none := by
  obtain ⟨l0, l1, l2⟩ := lower_spec h b
  obtain ⟨u0, u1, u2⟩ := upper_spec h b
  have : lowerBound l b = upperBound l b := by
    rcases Nat.lt_trichotomy (lowerBound l b) (upperBound l b) with hlt | he | hgt
    · exfalso
      have hy : l[lowerBound l b]? = some l[lowerBound l b] := List.getElem?_eq_getElem (by omega)
      have e1 := l2 _ _ (Nat.le_refl _) hy
      have e2 := u1 _ _ hlt hy
      exact hb _ (List.getElem_mem (by omega)) (blockLt_total e1 e2)
    · exact he
    · exfalso
      have hy : l[upperBound l b]? = some l[upperBound l b] := List.getElem?_eq_getElem (by omega)
      have e1 := l1 _ _ hgt hy
      have e2 := u2 _ _ (Nat.le_refl _) hy
      have := blockLt_asymm e1
      rw [e2] at this; exact absurd this (by simp)
  unfold offsetOf
  rw [if_neg (by simpa using this)]

/-! ## Sectors -/

/-- Sector sizes of an index. -/
def szs (I : Index) : List Nat := I.qns.map (·.2)

/-- Number of sectors. -/
def nb (is : IndexSet) : List Nat := is.map (·.nblock)

/-- Size of a sector. -/
def bsize (I : Index) (b : Nat) : Nat := (szs I).getD b 0

/-- Extents of a block. -/
def bext (is : IndexSet) (b : Block) : List Nat := List.zipWith bsize is b

/-- Size of a block. -/
def bdim (is : IndexSet) (b : Block) : Nat := (bext is b).prod

/-- Value of an index which is number `u` in sector `b`. -/
def gl (I : Index) (b u : Nat) : Nat := ((szs I).take b).sum + u

/-- Multi-index of the element `u` in block `b`. -/
def glue : IndexSet → Block → List Nat → List Nat
  | I :: is, b :: bs, u :: us => gl I b u :: glue is bs us
  | _, _, _ => []

/-- Dimensions of the indices: sum of the sector sizes. -/
def dims (is : IndexSet) : List Nat := is.map fun I => (szs I).sum

theorem szs_length (I : Index) : (szs I).length = I.nblock := by simp [szs, Index.nblock]

theorem blocksize0_ok {I : Index} {b : Nat} (h : b < I.nblock) : blocksize0 I b = .ok (bsize I b) := by
  have hb : b < I.qns.length := h
  unfold blocksize0 bsize szs
  rw [List.getElem?_eq_getElem hb, List.getD_eq_getElem?_getD, List.getElem?_map,
    List.getElem?_eq_getElem hb]
  rfl

theorem blockDim_ok {is : IndexSet} {b : Block} (h : Valid (nb is) b) (acc : Nat) :
    blockDim is b acc = .ok (acc * bdim is b) := by
  induction is generalizing b acc with
  | nil => cases h; simp [blockDim, bdim, bext]
  | cons I is ih =>
    simp only [nb, List.map_cons] at h
    cases h with
    | cons h1 h2 =>
      simp only [blockDim, blocksize0_ok h1, Res.bind_ok]
      rw [ih h2]
      simp [bdim, bext, Nat.mul_assoc]

theorem blockExtents_ok {is : IndexSet} {b : Block} (h : Valid (nb is) b) :
    blockExtents is b = .ok (bext is b) := by
  induction is generalizing b with
  | nil => cases h; simp [blockExtents, bext]
  | cons I is ih =>
    simp only [nb, List.map_cons] at h
    cases h with
    | cons h1 h2 =>
      simp only [blockExtents, blocksize0_ok h1, Res.bind_ok]
      rw [ih h2]
      simp [bext]

theorem bext_length {is : IndexSet} {b : Block} (h : Valid (nb is) b) : (bext is b).length = is.length := by
  have := valid_length h
  simp [bext, nb] at *
  omega

theorem subLoop_gl (ms : List Nat) (b u k : Nat) (hb : b < ms.length) (hu : u < ms.getD b 0) :
    subLoop ms k ((ms.take b).sum + u) = .ok (k + b, u) := by
  induction ms generalizing b k with
  | nil => simp at hb
  | cons m ms ih =>
    cases b with
    | zero =>
      simp only [List.getD_cons_zero] at hu
      simp only [List.take_zero, List.sum_nil, Nat.zero_add, Nat.add_zero, subLoop]
      rw [if_neg (by omega)]
    | succ b =>
      simp only [List.getD_cons_succ] at hu
      have e : ((m :: ms).take (b + 1)).sum + u = m + ((ms.take b).sum + u) := by
        simp only [List.take_succ_cons, List.sum_cons]; omega
      rw [e]
      simp only [subLoop]
      rw [if_pos (by omega), show m + ((ms.take b).sum + u) - m = (ms.take b).sum + u by omega,
        ih b (k + 1) (by simpa using hb) hu]
      congr 2; omega

theorem exists_gl (ms : List Nat) (v : Nat) (hv : v < ms.sum) :
    ∃ b u, b < ms.length ∧ u < ms.getD b 0 ∧ v = (ms.take b).sum + u := by
  induction ms generalizing v with
  | nil => simp at hv
  | cons m ms ih =>
    by_cases h : v < m
    · exact ⟨0, v, by simp, by simpa using h, by simp⟩
    · obtain ⟨b, u, h1, h2, h3⟩ := ih (v - m) (by simp only [List.sum_cons] at hv; omega)
      refine ⟨b + 1, u, by simp; omega, by simpa using h2, ?_⟩
      simp only [List.take_succ_cons, List.sum_cons]; omega

theorem gl_inj {I : Index} {b u b' u' : Nat} (hb : b < I.nblock) (hu : u < bsize I b)
    (hb' : b' < I.nblock) (hu' : u' < bsize I b') (h : gl I b u = gl I b' u') : b = b' ∧ u = u' := by
  have h1 := subLoop_gl (szs I) b u 0 (by rw [szs_length]; exact hb) hu
  have h2 := subLoop_gl (szs I) b' u' 0 (by rw [szs_length]; exact hb') hu'
  unfold gl at h
  rw [h, h2] at h1
  simp only [Res.ok.injEq, Prod.mk.injEq] at h1
  omega

theorem gl_lt {I : Index} {b u : Nat} (hb : b < I.nblock) (hu : u < bsize I b) :
    gl I b u < (szs I).sum := by
  have : ∀ (ms : List Nat) (b : Nat), b < ms.length → u < ms.getD b 0 → (ms.take b).sum + u < ms.sum := by
    intro ms
    induction ms with
    | nil => intro b hb; simp at hb
    | cons m ms ih =>
      intro b hb hu
      cases b with
      | zero => simp at hu ⊢; omega
      | succ b =>
        have := ih b (by simpa using hb) (by simpa using hu)
        simp only [List.take_succ_cons, List.sum_cons]; omega
  exact this _ _ (by rw [szs_length]; exact hb) hu

theorem eltLoop_glue {is : IndexSet} {b : Block} {u : List Nat} (hb : Valid (nb is) b)
    (hu : Valid (bext is b) u) (eoff estr : Nat) :
    eltLoop is (glue is b u) eoff estr = .ok (b, eoff + estr * rank (bext is b) u) := by
  induction is generalizing b u eoff estr with
  | nil =>
    cases hb
    simp only [bext, List.zipWith_nil_left] at hu
    cases hu
    simp [glue, eltLoop, bext, rank]
  | cons I is ih =>
    simp only [nb, List.map_cons] at hb
    cases hb with
    | cons h1 h2 =>
      rename_i x bs
      simp only [bext, List.zipWith_cons_cons] at hu
      cases hu with
      | cons h3 h4 =>
        rename_i y us
        simp only [glue, eltLoop]
        have := subLoop_gl (szs I) x y 0 (by rw [szs_length]; exact h1) h3
        unfold gl
        rw [show I.qns.map (·.2) = szs I from rfl, this]
        simp only [Res.bind_ok, Nat.zero_add]
        rw [blocksize0_ok h1]
        simp only [Res.bind_ok]
        rw [ih h2 h4]
        simp only [Res.bind_ok, bext, List.zipWith_cons_cons, rank]
        congr 2
        ring

theorem exists_glue {is : IndexSet} {ind : List Nat} (h : Valid (dims is) ind) :
    ∃ b u, Valid (nb is) b ∧ Valid (bext is b) u ∧ ind = glue is b u := by
  induction is generalizing ind with
  | nil =>
    cases h
    exact ⟨[], [], List.Forall₂.nil, List.Forall₂.nil, rfl⟩
  | cons I is ih =>
    simp only [dims, List.map_cons] at h
    cases h with
    | cons h1 h2 =>
      obtain ⟨b, u, hb, hu, rfl⟩ := ih h2
      obtain ⟨x, y, hx, hy, rfl⟩ := exists_gl _ _ h1
      exact ⟨x :: b, y :: u, List.Forall₂.cons (by show x < I.nblock; rw [← szs_length]; exact hx) hb,
        List.Forall₂.cons hy hu, rfl⟩

theorem glue_valid {is : IndexSet} {b : Block} {u : List Nat} (hb : Valid (nb is) b)
    (hu : Valid (bext is b) u) : Valid (dims is) (glue is b u) := by
  induction is generalizing b u with
  | nil => cases hb; simp only [bext, List.zipWith_nil_left] at hu; cases hu; exact List.Forall₂.nil
  | cons I is ih =>
    simp only [nb, List.map_cons] at hb
    cases hb with
    | cons h1 h2 =>
      simp only [bext, List.zipWith_cons_cons] at hu
      cases hu with
      | cons h3 h4 => exact List.Forall₂.cons (gl_lt h1 h3) (ih h2 h4)

theorem glue_inj {is : IndexSet} {b b' : Block} {u u' : List Nat} (hb : Valid (nb is) b)
    (hu : Valid (bext is b) u) (hb' : Valid (nb is) b') (hu' : Valid (bext is b') u')
    (h : glue is b u = glue is b' u') : b = b' ∧ u = u' := by
  have h1 := eltLoop_glue hb hu 0 1
  have h2 := eltLoop_glue hb' hu' 0 1
  rw [h, h2] at h1
  simp only [Res.ok.injEq, Prod.mk.injEq, Nat.zero_add, Nat.one_mul] at h1
  obtain ⟨rfl, h3⟩ := h1
  exact ⟨rfl, by rw [← unrank_rank hu, ← unrank_rank hu', h3]⟩

/-! ## Layout of the store -/

/-- The regions of the listed blocks follow one another from `s` to `e`. -/
def Tile (is : IndexSet) : List BlOf → Nat → Nat → Prop
  | [], s, e => s = e
  | o :: os, s, e => o.offset = s ∧ Tile is os (s + bdim is o.block) e

/-- Well-formed storage: strictly increasing valid blocks whose regions fill the store in order. -/
structure WF (is : IndexSet) (offs : List BlOf) (size : Nat) : Prop where
  sorted : SortedOff offs
  valid : ∀ o ∈ offs, Valid (nb is) o.block
  tile : Tile is offs 0 size

theorem Tile.le {is : IndexSet} {offs : List BlOf} {s e : Nat} (h : Tile is offs s e) : s ≤ e := by
  induction offs generalizing s with
  | nil => exact Nat.le_of_eq h
  | cons o os ih => have := ih h.2; omega

theorem Tile.bounds {is : IndexSet} {offs : List BlOf} {s e : Nat} (h : Tile is offs s e) :
    ∀ o ∈ offs, s ≤ o.offset ∧ o.offset + bdim is o.block ≤ e := by
  induction offs generalizing s with
  | nil => simp
  | cons o os ih =>
    intro x hx
    rcases List.mem_cons.1 hx with rfl | hx
    · exact ⟨by rw [h.1], by rw [h.1]; exact h.2.le⟩
    · have := ih h.2 x hx; omega

theorem Tile.disjoint {is : IndexSet} {offs : List BlOf} {s e : Nat} (h : Tile is offs s e) :
    offs.Pairwise (fun a b => a.offset + bdim is a.block ≤ b.offset) := by
  induction offs generalizing s with
  | nil => simp
  | cons o os ih =>
    rw [List.pairwise_cons]
    refine ⟨fun x hx => ?_, ih h.2⟩
    have := (h.2.bounds x hx).1
    rw [h.1]; omega

theorem Tile.append {is : IndexSet} {l m : List BlOf} {s e : Nat} :
    Tile is (l ++ m) s e ↔ ∃ k, Tile is l s k ∧ Tile is m k e := by
  induction l generalizing s with
  | nil => simp [Tile]
  | cons o l ih =>
    simp only [List.cons_append, Tile, ih]
    constructor
    · rintro ⟨h, k, h1, h2⟩; exact ⟨k, ⟨h, h1⟩, h2⟩
    · rintro ⟨k, ⟨h, h1⟩, h2⟩; exact ⟨h, k, h1, h2⟩

theorem Tile.shift {is : IndexSet} {l : List BlOf} {s e n : Nat} (h : Tile is l s e) :
    Tile is (l.map fun o => ⟨o.block, o.offset + n⟩) (s + n) (e + n) := by
  induction l generalizing s with
  | nil => simp only [List.map_nil, Tile] at *; omega
  | cons o l ih =>
    refine ⟨by simp [h.1], ?_⟩
    have := ih h.2
    dsimp only
    rw [show s + n + bdim is o.block = s + bdim is o.block + n by omega]
    exact this

/-- Every position of the store is in the region of exactly one block. -/
theorem Tile.cover {is : IndexSet} {l : List BlOf} {s e : Nat} (h : Tile is l s e) (p : Nat)
    (h1 : s ≤ p) (h2 : p < e) : ∃ o ∈ l, o.offset ≤ p ∧ p < o.offset + bdim is o.block := by
  induction l generalizing s with
  | nil => simp only [Tile] at h; omega
  | cons o l ih =>
    by_cases hp : p < s + bdim is o.block
    · exact ⟨o, by simp, by rw [h.1]; exact h1, by rw [h.1]; exact hp⟩
    · obtain ⟨x, hx, h3⟩ := ih h.2 (by omega)
      exact ⟨x, by simp [hx], h3⟩

/-- Regions of two different blocks do not meet. -/
theorem WF.disjoint {is : IndexSet} {offs : List BlOf} {size : Nat} (h : WF is offs size) {a b : BlOf}
    (ha : a ∈ offs) (hb : b ∈ offs) (hne : a ≠ b) :
    a.offset + bdim is a.block ≤ b.offset ∨ b.offset + bdim is b.block ≤ a.offset := by
  obtain ⟨i, hi⟩ := List.mem_iff_getElem?.1 ha
  obtain ⟨j, hj⟩ := List.mem_iff_getElem?.1 hb
  obtain ⟨hi', rfl⟩ := List.getElem?_eq_some_iff.1 hi
  obtain ⟨hj', rfl⟩ := List.getElem?_eq_some_iff.1 hj
  have hd := List.pairwise_iff_getElem.1 h.tile.disjoint
  rcases Nat.lt_trichotomy i j with hlt | rfl | hlt
  · exact Or.inl (hd i j hi' hj' hlt)
  · exact absurd rfl hne
  · exact Or.inr (hd j i hj' hi' hlt)

theorem WF.block_inj {is : IndexSet} {offs : List BlOf} {size : Nat} (h : WF is offs size) {a b : BlOf}
    (ha : a ∈ offs) (hb : b ∈ offs) (he : a.block = b.block) : a = b := by
  have h1 := offsetOf_mem h.sorted ha
  have h2 := offsetOf_mem h.sorted hb
  rw [he, h2] at h1
  have : b.offset = a.offset := by simpa using h1
  cases a; cases b; simp_all

theorem valid_nil_nb {b : Block} (h : Valid (nb []) b) : b = [] := by cases h; rfl

theorem wf_order_zero {offs : List BlOf} {size : Nat} (h : WF [] offs size) :
    (offs = [] ∧ size = 0) ∨ (offs = [⟨[], 0⟩] ∧ size = 1) := by
  match offs, h with
  | [], h => exact Or.inl ⟨rfl, h.tile.symm⟩
  | [o], h =>
    right
    have hb := valid_nil_nb (h.valid o (by simp))
    have ht := h.tile
    simp only [Tile, hb] at ht
    refine ⟨?_, ?_⟩
    · cases o; simp_all
    · have : bdim [] ([] : Block) = 1 := rfl
      omega
  | o :: o' :: os, h =>
    exfalso
    have h1 := valid_nil_nb (h.valid o (by simp))
    have h2 := valid_nil_nb (h.valid o' (by simp))
    have := h.sorted
    simp only [SortedOff, List.pairwise_cons] at this
    have := this.1 o' (by simp)
    rw [h1, h2, blockLt_irrefl] at this
    exact absurd this (by simp)

section
variable {K : Type*}

/-- Lookup of a block agrees with the list of offsets. -/
theorem getBlock_mem {is : IndexSet} {d : QDense K} (h : WF is d.offsets d.size) {o : BlOf}
    (ho : o ∈ d.offsets) : getBlock d o.block = some o.offset := by
  unfold getBlock
  by_cases hb : o.block = []
  · rw [if_pos hb]
    have hv := h.valid o ho
    rw [hb] at hv
    have : is = [] := by
      have := valid_length hv
      cases is with
      | nil => rfl
      | cons _ _ => simp [nb] at this
    subst this
    rcases wf_order_zero h with ⟨e, _⟩ | ⟨e, e'⟩
    · rw [e] at ho; simp at ho
    · rw [e] at ho
      have : o = ⟨[], 0⟩ := by simpa using ho
      subst this
      simp [e']
  · rw [if_neg hb]; exact offsetOf_mem h.sorted ho

theorem getBlock_notMem {is : IndexSet} {d : QDense K} (h : WF is d.offsets d.size) {b : Block}
    (hv : Valid (nb is) b) (hb : ∀ o ∈ d.offsets, o.block ≠ b) : getBlock d b = none := by
  unfold getBlock
  by_cases he : b = []
  · rw [if_pos he]
    subst he
    have : is = [] := by
      have := valid_length hv
      cases is with
      | nil => rfl
      | cons _ _ => simp [nb] at this
    subst this
    rcases wf_order_zero h with ⟨_, e⟩ | ⟨e, e'⟩
    · simp [e]
    · exact absurd rfl (hb ⟨[], 0⟩ (by rw [e]; simp))
  · rw [if_neg he]; exact offsetOf_notMem h.sorted hb

theorem getBlock_some {is : IndexSet} {d : QDense K} (h : WF is d.offsets d.size) {b : Block}
    (hv : Valid (nb is) b) {o : Nat} (hb : getBlock d b = some o) : (⟨b, o⟩ : BlOf) ∈ d.offsets := by
  by_cases hm : ∀ x ∈ d.offsets, x.block ≠ b
  · rw [getBlock_notMem h hv hm] at hb; exact absurd hb (by simp)
  · push Not at hm
    obtain ⟨x, hx, rfl⟩ := hm
    rw [getBlock_mem h hx] at hb
    have : x.offset = o := by simpa using hb
    subst this; exact hx

/-- The element `u` of block `b`, zero if the block is absent. -/
def elem [Zero K] (d : QDense K) (is : IndexSet) (b : Block) (u : List Nat) : K :=
  match getBlock d b with
  | some o => d.data ((o + rank (bext is b) u : Nat) : Int)
  | none => 0

theorem glue_eq_nil {is : IndexSet} {b : Block} {u : List Nat} (hb : Valid (nb is) b)
    (hu : Valid (bext is b) u) : glue is b u = [] ↔ b = [] := by
  cases is with
  | nil => cases hb; simp [glue]
  | cons I is =>
    simp only [nb, List.map_cons] at hb
    cases hb with
    | cons h1 h2 =>
      simp only [bext, List.zipWith_cons_cons] at hu
      cases hu; simp [glue]

theorem getEltBlockOffset_glue {is : IndexSet} (d : QDense K) {b : Block} {u : List Nat}
    (hb : Valid (nb is) b) (hu : Valid (bext is b) u) :
    getEltBlockOffset d is (glue is b u) =
      .ok ((getBlock d b).map (· + rank (bext is b) u), b, rank (bext is b) u) := by
  unfold getEltBlockOffset getBlock
  by_cases hn : b = []
  · rw [if_pos ((glue_eq_nil hb hu).2 hn), if_pos hn]
    subst hn
    have : bext is ([] : Block) = [] := by simp [bext]
    rw [this] at hu ⊢
    cases hu
    simp only [rank, Nat.add_zero, Option.map_id']
  · rw [if_neg (fun e => hn ((glue_eq_nil hb hu).1 e)), if_neg hn, eltLoop_glue hb hu]
    simp only [Res.bind_ok, Nat.zero_add, Nat.one_mul]
    cases offsetOf d.offsets b <;> rfl

theorem getElt_glue [CommRing K] {is : IndexSet} {d : QDense K} (h : WF is d.offsets d.size) {b : Block} {u : List Nat}
    (hb : Valid (nb is) b) (hu : Valid (bext is b) u) :
    getElt d is (glue is b u) = .ok (elem d is b u) := by
  unfold getElt elem
  rw [getEltBlockOffset_glue d hb hu]
  simp only [Res.bind_ok]
  cases hg : getBlock d b with
  | none => rfl
  | some o =>
    have hm := getBlock_some h hb hg
    have := (h.tile.bounds _ hm).2
    have hr := rank_lt hu
    simp only [Option.map_some]
    rw [if_pos (by unfold bdim at this; simp only at this; omega)]

end

end Verif.QDense
