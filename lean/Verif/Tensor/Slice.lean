import Verif.Tensor.Transform
import Mathlib.Tactic.Linarith

/-!
# Slices of tensors: C57 (`isContiguous`), C58 (`subTensor`, `subIndex`, `groupInds`)
-/

namespace Verif.Tensor

open Range Permutation

/-- The set of addresses of a range is `{0,...,dim-1}` (the comment at range.h:519-523). -/
def ContigSet (R : Range) : Prop :=
  ∀ o : Nat, (∃ i, Valid R.extents i ∧ addr R i = o) ↔ o < R.extents.prod

/-- Every stride is at least the product `p * (extents before)`: holds of every slice of a column-major
range. -/
def Nested : Nat → List IndStr → Prop
  | _, [] => True
  | p, r :: R => p ≤ r.str ∧ Nested (p * r.ind) R

/-- Largest address plus one, minus one: `sum of stride*(extent-1)`. -/
def maxAddr : List IndStr → Nat
  | [] => 0
  | r :: R => r.str * (r.ind - 1) + maxAddr R

theorem isContiguous_iff (R : Range) (hpos : ∀ d ∈ R.extents, 0 < d) :
    R.isContiguous = true ↔ 1 + maxAddr R = R.extents.prod := by
  have : ∀ (R : List IndStr) (a b : Int), (∀ d ∈ Range.extents R, 0 < d) →
      R.foldl (fun (p : Int × Int) r => (p.1 + r.str * ((r.ind : Int) - 1), p.2 * r.ind)) (a, b) =
        (a + maxAddr R, b * ((Range.extents R).prod : Nat)) := by
    intro R
    induction R with
    | nil => intro a b _; simp [maxAddr, extents]
    | cons r R ih =>
      intro a b h
      have hr : 0 < r.ind := h r.ind (by simp [extents])
      rw [List.foldl_cons, ih _ _ (fun d hd => h d (by simp [extents] at hd ⊢; exact .inr hd))]
      simp only [maxAddr, extents, List.map_cons, List.prod_cons]
      obtain ⟨e, he⟩ : ∃ e, r.ind = e + 1 := ⟨r.ind - 1, by omega⟩
      rw [he]
      push_cast
      simp only [Nat.add_sub_cancel, Prod.mk.injEq]
      constructor <;> ring
  unfold isContiguous
  simp only [this R 0 1 hpos, beq_iff_eq]
  constructor
  · intro h
    have : (1 : Int) + ((maxAddr R : Nat) : Int) = ((R.extents.prod : Nat) : Int) := by linarith
    exact_mod_cast this
  · intro h
    have : (1 : Int) + ((maxAddr R : Nat) : Int) = ((R.extents.prod : Nat) : Int) := by exact_mod_cast h
    linarith

theorem addr_le_max (R : List IndStr) (i : List Nat) (h : Valid (Range.extents R) i) :
    addr R i ≤ maxAddr R := by
  induction R generalizing i with
  | nil => simp [addr]
  | cons r R ih =>
    cases i with
    | nil => simp
    | cons a is =>
      rw [show Range.extents (r :: R) = r.ind :: Range.extents R from rfl] at h
      obtain ⟨h1, h2⟩ := List.forall₂_cons.1 h
      simp only [addr_cons, maxAddr]
      exact Nat.add_le_add (Nat.mul_le_mul_left _ (by omega)) (ih is h2)

theorem max_attained (R : List IndStr) (hpos : ∀ d ∈ Range.extents R, 0 < d) :
    ∃ i, Valid (Range.extents R) i ∧ addr R i = maxAddr R := by
  induction R with
  | nil => exact ⟨[], .nil, rfl⟩
  | cons r R ih =>
    obtain ⟨i, h1, h2⟩ := ih fun d hd => hpos d (by simp [extents] at hd ⊢; exact .inr hd)
    have hr : 0 < r.ind := hpos r.ind (by simp [extents])
    exact ⟨(r.ind - 1) :: i, .cons (by show r.ind - 1 < r.ind; omega) h1, by simp [maxAddr, h2]⟩

theorem nested_bound (R : List IndStr) (p : Nat) (hn : Nested p R)
    (hpos : ∀ d ∈ Range.extents R, 0 < d) :
    p * (Range.extents R).prod ≤ p + maxAddr R ∧
    (p + maxAddr R = p * (Range.extents R).prod →
      ∀ i, Valid (Range.extents R) i → addr R i = p * rank (Range.extents R) i) := by
  induction R generalizing p with
  | nil => exact ⟨by simp [extents, maxAddr], fun _ i _ => by simp [addr, extents, rank]⟩
  | cons r R ih =>
    have hr : 0 < r.ind := hpos r.ind (by simp [extents])
    obtain ⟨h1, h2⟩ := hn
    obtain ⟨ihb, ihe⟩ := ih (p * r.ind) h2 fun d hd => hpos d (by simp [extents] at hd ⊢; exact .inr hd)
    rw [show Range.extents (r :: R) = r.ind :: Range.extents R from rfl]
    simp only [maxAddr, List.prod_cons]
    obtain ⟨e, he⟩ : ∃ e, r.ind = e + 1 := ⟨r.ind - 1, by omega⟩
    have hm : p * e ≤ r.str * e := Nat.mul_le_mul_right _ h1
    rw [he] at ihb ihe ⊢
    simp only [Nat.add_sub_cancel]
    have e1 : p * (e + 1) = p + p * e := by ring
    have e2 : p * ((e + 1) * (Range.extents R).prod) = p * (e + 1) * (Range.extents R).prod := by ring
    refine ⟨by rw [e2]; omega, fun heq i hi => ?_⟩
    rw [e2] at heq
    have hpe : p * e = r.str * e := by omega
    have hrest := ihe (by omega)
    cases i with
    | nil => cases hi
    | cons a is =>
      obtain ⟨ha, his⟩ := List.forall₂_cons.1 hi
      simp only [addr_cons, rank]
      rw [hrest is his]
      have : r.str * a = p * a := by
        by_cases h0 : e = 0
        · have : a = 0 := by omega
          subst this; simp
        · have := Nat.eq_of_mul_eq_mul_right (Nat.pos_of_ne_zero h0) hpe
          rw [this]
      rw [this]; ring

theorem maxAddr_perm {R R' : List IndStr} (h : R.Perm R') : maxAddr R = maxAddr R' := by
  induction h with
  | nil => rfl
  | cons x _ ih => simp [maxAddr, ih]
  | swap x y l => simp only [maxAddr]; omega
  | trans _ _ h1 h2 => rw [h1, h2]

theorem addrs_perm {R R' : List IndStr} (h : R.Perm R') (o : Nat) :
    (∃ i, Valid (Range.extents R) i ∧ addr R i = o) → ∃ i, Valid (Range.extents R') i ∧ addr R' i = o := by
  induction h generalizing o with
  | nil => exact id
  | @cons x l l' _ ih =>
    rintro ⟨i, hi, hio⟩
    cases i with
    | nil => cases hi
    | cons a is =>
      obtain ⟨ha, his⟩ := List.forall₂_cons.1 hi
      obtain ⟨j, hj, hjo⟩ := ih (addr l is) ⟨is, his, rfl⟩
      exact ⟨a :: j, .cons ha hj, by rw [addr_cons, hjo]; exact hio⟩
  | swap x y l =>
    rintro ⟨i, hi, hio⟩
    match i, hi with
    | a :: b :: is, hi =>
      obtain ⟨ha, hi'⟩ := List.forall₂_cons.1 hi
      obtain ⟨hb, his⟩ := List.forall₂_cons.1 hi'
      exact ⟨b :: a :: is, .cons hb (.cons ha his), by simp only [addr_cons] at hio ⊢; omega⟩
  | trans _ _ h1 h2 => exact fun h => h2 o (h1 o h)

/-- **C57.** `isContiguous` answers correctly for every range that is, up to the order of its indices,
a slice of a column-major range: it is true exactly when the addresses of all multi-indices form the
set `{0,...,dim-1}`. -/
theorem C57_isContiguous (R R' : Range) (hperm : R'.Perm R) (hn : Nested 1 R')
    (hpos : ∀ d ∈ R.extents, 0 < d) :
    R.isContiguous = true ↔ ContigSet R := by
  have hpe : R'.extents.Perm R.extents := hperm.map _
  have hpos' : ∀ d ∈ R'.extents, 0 < d := fun d hd => hpos d (hpe.mem_iff.1 hd)
  have hprod : R'.extents.prod = R.extents.prod := hpe.prod_eq
  rw [isContiguous_iff R hpos]
  constructor
  · intro h
    rw [← maxAddr_perm hperm, ← hprod] at h
    have hadr := (nested_bound R' 1 hn hpos').2 (by rw [Nat.one_mul]; exact h)
    intro o
    rw [← hprod]
    constructor
    · intro hex
      obtain ⟨i, hi, rfl⟩ := addrs_perm hperm.symm o hex
      rw [hadr i hi, Nat.one_mul]; exact rank_lt hi
    · intro ho
      refine addrs_perm hperm o ⟨unrank R'.extents o, unrank_valid ho, ?_⟩
      rw [hadr _ (unrank_valid ho), Nat.one_mul, rank_unrank ho]
  · intro h
    obtain ⟨i, hi, hm⟩ := max_attained R hpos
    have h1 := (h (maxAddr R)).1 ⟨i, hi, hm⟩
    obtain ⟨j, hj, hjo⟩ := (h (R.extents.prod - 1)).2 (by omega)
    have := addr_le_max R j hj
    omega

example : Nested 1 (init [2, 3]) ∧ ([⟨3, 2⟩, ⟨2, 1⟩] : Range).Perm (init [2, 3]) ∧
    isContiguous [⟨3, 2⟩, ⟨2, 1⟩] = true ∧ Nested 1 [⟨2, 1⟩, ⟨2, 3⟩] ∧
    isContiguous [⟨2, 1⟩, ⟨2, 3⟩] = false := by
  refine ⟨⟨by decide, by decide, trivial⟩, by decide, by decide, ⟨by decide, by decide, trivial⟩, by decide⟩

/-- **C57, boundary.** The argument in the comment at range.h:519-533 is not valid for arbitrary
strides: for extents (3,3) and strides (2,2) the answer is "contiguous" but address 1 is never hit. -/
theorem C57_isContiguous_counterexample :
    isContiguous [⟨3, 2⟩, ⟨3, 2⟩] = true ∧ ¬ ContigSet [⟨3, 2⟩, ⟨3, 2⟩] := by
  refine ⟨by decide, fun h => ?_⟩
  obtain ⟨i, hi, ho⟩ := (h 1).2 (by decide)
  match i, hi with
  | [a, b], _ => simp [addr] at ho; omega

/-! ## Slices -/

/-- Addition of multi-indices. -/
def addIdx (a b : List Nat) : List Nat := List.zipWith (· + ·) a b

/-- **C58.** `subTensor(T,start,stop)`: element `j` of the view is element `start+j` of `T`, and the
view's multi-indices correspond exactly to those of `T` between `start` and `stop`. -/
theorem C58_subTensor (R : Range) (start stop : List Nat) (h1 : start.length = R.length)
    (h2 : stop.length = R.length) :
    (subTensor R start stop).2.extents = List.zipWith (· - ·) stop start ∧
    (∀ j, j.length = R.length →
      (subTensor R start stop).1 + addr (subTensor R start stop).2 j = addr R (addIdx start j)) ∧
    (Valid R.extents (stop.map (· - 1)) → ∀ j, Valid (subTensor R start stop).2.extents j →
      Valid R.extents (addIdx start j)) := by
  induction R generalizing start stop with
  | nil =>
    have : start = [] := by simpa using h1
    have : stop = [] := by simpa using h2
    subst start; subst stop
    refine ⟨rfl, fun j hj => ?_, fun _ j _ => .nil⟩
    simp [subTensor, addIdx]
  | cons r R ih =>
    match start, stop, h1, h2 with
    | st :: start, sp :: stop, h1, h2 =>
      obtain ⟨e1, e2, e3⟩ := ih start stop (by simpa using h1) (by simpa using h2)
      refine ⟨?_, ?_, ?_⟩
      · simp only [extents] at e1
        simp [subTensor, extents, e1]
      · intro j hj
        cases j with
        | nil => simp at hj
        | cons a j =>
          have := e2 j (by simpa using hj)
          simp only [subTensor, addr_cons, addIdx, List.zipWith_cons_cons]
          rw [show List.zipWith (· + ·) start j = addIdx start j from rfl, ← this]; ring
      · intro hv j hj
        rw [show Range.extents (r :: R) = r.ind :: Range.extents R from rfl] at hv ⊢
        obtain ⟨ha, hv'⟩ := List.forall₂_cons.1 hv
        cases j with
        | nil => exact absurd (valid_length hj) (by simp [subTensor, extents])
        | cons a j =>
          simp only [subTensor, extents, List.map_cons] at hj
          obtain ⟨hb, hj'⟩ := List.forall₂_cons.1 hj
          exact .cons (by show st + a < r.ind; simp only at ha hb; omega) (e3 hv' j hj')

/-- **C58.** `subIndex(T,ind,start,stop)`: element `j` of the view is the element of `T` with index
`ind` shifted by `start`. -/
theorem C58_subIndex (R : Range) (ind start stop : Nat) (r : IndStr) (hr : R[ind]? = some r)
    (j : List Nat) (x : Nat) (hx : j[ind]? = some x) :
    ∃ off V, subIndex R ind start stop = .ok (off, V) ∧
      off + addr V j = addr R (j.set ind (start + x)) ∧
      V.extents = R.extents.set ind (stop - start) := by
  refine ⟨_, _, by rw [subIndex, hr], ?_, by simp [extents, List.map_set]⟩
  induction R generalizing ind j with
  | nil => simp at hr
  | cons r' R ih =>
    cases j with
    | nil => simp at hx
    | cons a j =>
      cases ind with
      | zero =>
        simp at hr hx; subst hr; subst hx
        simp; ring
      | succ n =>
        have := ih n (by simpa using hr) j (by simpa using hx)
        simp only [List.set_cons_succ, addr_cons] at this ⊢
        omega

/-- **C57.** In particular it is exact for `permute(subTensor(T,start,stop),P)` of any column-major
tensor `T`, any non-empty box inside it and any permutation. -/
theorem C57_slices (ds start stop : List Nat) (P : Permutation) (hP : IsPerm P)
    (hl : P.length = ds.length) (h1 : List.Forall₂ (· < ·) start stop)
    (h2 : List.Forall₂ (· ≤ ·) stop ds) :
    ∃ V, permuteRange (subTensor (init ds) start stop).2 P = .ok V ∧
      (V.isContiguous = true ↔ ContigSet V) := by
  have hnest : ∀ (ds start stop : List Nat) (s p : Nat), p ≤ s → List.Forall₂ (· < ·) start stop →
      List.Forall₂ (· ≤ ·) stop ds →
      Nested p (subTensor (initFrom s ds) start stop).2 ∧
      (subTensor (initFrom s ds) start stop).2.length = ds.length ∧
      ∀ d ∈ (subTensor (initFrom s ds) start stop).2.extents, 0 < d := by
    intro ds
    induction ds with
    | nil => intro start stop s p _ _ _; exact ⟨trivial, rfl, by simp [subTensor, initFrom, extents]⟩
    | cons d ds ih =>
      intro start stop s p hp ha hb
      cases stop with
      | nil => cases hb
      | cons sp stop =>
        cases start with
        | nil => cases ha
        | cons st start =>
        obtain ⟨ha1, ha2⟩ := List.forall₂_cons.1 ha
        obtain ⟨hb1, hb2⟩ := List.forall₂_cons.1 hb
        obtain ⟨i1, i2, i3⟩ := ih start stop (s * d) (p * (sp - st))
          (Nat.mul_le_mul hp (by omega)) ha2 hb2
        refine ⟨⟨hp, i1⟩, by simp [subTensor, initFrom, i2], ?_⟩
        intro x hx
        simp only [subTensor, initFrom, extents, List.map_cons, List.mem_cons] at hx
        rcases hx with rfl | hx
        · omega
        · exact i3 x hx
  obtain ⟨hn, hlen, hpos⟩ := hnest ds start stop 1 1 (Nat.le_refl 1) h1 h2
  rw [show initFrom 1 ds = init ds from rfl] at hn hlen hpos
  obtain ⟨V, e, hVl, hV, _⟩ := C17_permute_view (subTensor (init ds) start stop).2 P hP (by omega)
  have hperm : (subTensor (init ds) start stop).2.Perm V := by
    have hR : (subTensor (init ds) start stop).2 = P.map fun d => (V[d]?).getD {} := by
      apply List.ext_getElem?
      intro n
      by_cases hn : n < P.length
      · have hPn : P[n]? = some P[n] := List.getElem?_eq_getElem hn
        rw [List.getElem?_map, hPn, Option.map_some, hV n _ hPn,
          List.getElem?_eq_getElem (by omega)]
        simp
      · rw [List.getElem?_eq_none (by omega), List.getElem?_eq_none (by simp; omega)]
    have hV' : V = (List.range P.length).map fun d => (V[d]?).getD {} := by
      apply List.ext_getElem?
      intro n
      by_cases hn : n < V.length
      · rw [List.getElem?_map, List.getElem?_range (by omega), List.getElem?_eq_getElem hn]
        simp [hn]
      · rw [List.getElem?_eq_none (by omega), List.getElem?_eq_none (by simp; omega)]
    have := (show P.Perm (List.range P.length) from hP).map fun d => (V[d]?).getD ({} : IndStr)
    rw [hR]
    exact this.trans (by rw [← hV'])
  refine ⟨V, e, C57_isContiguous V _ hperm hn ?_⟩
  intro d hd
  exact hpos d ((hperm.map IndStr.ind).mem_iff.2 hd)

example : List.Forall₂ (· < ·) [0, 1] [2, 3] ∧ List.Forall₂ (· ≤ ·) [2, 3] [2, 3] ∧
    permuteRange (subTensor (init [2, 3]) [0, 1] [2, 3]).2 [1, 0] = .ok [⟨2, 2⟩, ⟨2, 1⟩] := by decide

theorem groupIndsRange_init (a g b : List Nat) (hpos : ∀ d ∈ a ++ g ++ b, 0 < d) :
    groupIndsRange (init (a ++ g ++ b)) a.length (a.length + g.length) = .ok (init (a ++ [g.prod] ++ b)) := by
  have hc : (init (a ++ g ++ b)).isContiguous = true := by
    refine (C57_isContiguous _ _ (List.Perm.refl _) ?_ ?_).2 ?_
    · have : ∀ (ds : List Nat) (s p : Nat), p ≤ s → Nested p (initFrom s ds) := by
        intro ds
        induction ds with
        | nil => intros; trivial
        | cons d ds ih => intro s p h; exact ⟨h, ih _ _ (Nat.mul_le_mul_right _ h)⟩
      exact this _ 1 1 (Nat.le_refl 1)
    · rw [extents_init]; exact hpos
    · intro o
      rw [extents_init]
      constructor
      · rintro ⟨i, hi, rfl⟩; rw [addr_init (valid_length hi)]; exact rank_lt hi
      · intro ho
        exact ⟨_, unrank_valid ho, by rw [addr_init (by simp), rank_unrank ho]⟩
  have hfold : ∀ (R : List IndStr) (c : Nat), R.foldl (fun g r => g * r.ind) c = c * (Range.extents R).prod := by
    intro R
    induction R with
    | nil => intro c; simp [extents]
    | cons r R ih => intro c; simp only [List.foldl_cons, ih, extents, List.map_cons, List.prod_cons]; ring
  have hext : ∀ n m, Range.extents ((List.drop n (init (a ++ g ++ b))).take m) =
      ((a ++ g ++ b).drop n).take m := by
    intro n m
    have := extents_init (a ++ g ++ b)
    simp only [extents] at this ⊢
    rw [List.map_take, List.map_drop, this]
  unfold groupIndsRange
  rw [hc]
  simp only [Bool.not_true, Bool.false_eq_true, if_false]
  rw [computeStrides_eq]
  congr 2
  have h1 : Range.extents ((init (a ++ g ++ b)).take a.length) = a := by
    have := hext 0 a.length
    simpa using this
  have h2 : Range.extents ((init (a ++ g ++ b)).drop (a.length + g.length)) = b := by
    have := extents_init (a ++ g ++ b)
    simp only [extents] at this ⊢
    rw [List.map_drop, this, List.append_assoc, ← List.append_assoc,
      ← List.length_append, List.drop_left]
  have h3 : Range.extents (((init (a ++ g ++ b)).drop a.length).take (a.length + g.length - a.length)) = g := by
    rw [hext, List.append_assoc, List.drop_left, Nat.add_sub_cancel_left, List.take_left]
  rw [hfold, h3, Nat.one_mul]
  simp only [extents] at h1 h2 ⊢
  simp only [List.map_append, List.map_map, Function.comp_def, List.map_cons, List.map_nil]
  rw [h1, h2]

/-- **C58, partial.** `groupInds(T,istart,iend)` on a column-major range: the view has extent the product of the
grouped extents, and its element at `(i before) ++ [position within the group] ++ (i after)` is the
element of `T` at `i`. Missing: other contiguous ranges, for which it is false. -/
theorem C58_groupInds_partial (a g b : List Nat) (hpos : ∀ d ∈ a ++ g ++ b, 0 < d) :
    ∃ V, groupIndsRange (init (a ++ g ++ b)) a.length (a.length + g.length) = .ok V ∧
      V.extents = a ++ [g.prod] ++ b ∧
      ∀ i j k, i.length = a.length → j.length = g.length → k.length = b.length →
        addr V (i ++ [rank g j] ++ k) = addr (init (a ++ g ++ b)) (i ++ j ++ k) := by
  refine ⟨init (a ++ [g.prod] ++ b), groupIndsRange_init a g b hpos, extents_init _, ?_⟩
  · intro i j k hi hj hk
    rw [addr_init (by simp; omega), addr_init (by simp; omega)]
    have happ : ∀ (d i e j : List Nat), i.length = d.length →
        rank (d ++ e) (i ++ j) = rank d i + d.prod * rank e j := by
      intro d
      induction d with
      | nil => intro i e j h; have : i = [] := by simpa using h
               subst this; simp [rank]
      | cons x d ih =>
        intro i e j h
        cases i with
        | nil => simp at h
        | cons y i =>
          simp only [List.cons_append, rank, List.prod_cons]
          rw [ih i e j (by simpa using h)]; ring
    rw [List.append_assoc, List.append_assoc, List.append_assoc, List.append_assoc,
      happ a i _ _ hi, happ a i _ _ hi, happ g j _ _ hj, happ [g.prod] [rank g j] _ _ rfl]
    simp [rank]

example : groupIndsRange (init [2, 3, 4, 5]) 1 3 = .ok (init [2, 12, 5]) := by decide

/-- **C58 fails for transposed views.** A transposed 2x3 view passes the contiguity test of
`groupInds`, but the grouped view addresses other elements: position 1 of the group is multi-index
(1,0), stored at address 3, while the grouped view reads address 1. -/
theorem C58_groupInds_counterexample :
    groupIndsRange [⟨2, 3⟩, ⟨3, 1⟩] 0 2 = .ok [⟨6, 1⟩] ∧ rank [2, 3] [1, 0] = 1 ∧
    addr [⟨6, 1⟩] [1] ≠ addr [⟨2, 3⟩, ⟨3, 1⟩] [1, 0] := by decide

end Verif.Tensor
