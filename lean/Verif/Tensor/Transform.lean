import Verif.Tensor.Perm
import Mathlib.Data.List.Perm.Basic

/-!
# `transform` (`/repo/itensor/tensor/ten_impl.h`), permuted and sliced views, C17, C57
-/

namespace Verif.Tensor

open Range Permutation

/-- Loop of `transform` looking for the largest extent (ten_impl.h:126-134), from position `j`. -/
def bigLoop : Range → Nat → Nat × Nat → Nat × Nat
  | [], _, b => b
  | r :: R, j, b => bigLoop R (j + 1) (if b.2 < r.ind then (j, r.ind) else b)

/-- `(bigind, bigsize)` (ten_impl.h:126-134). -/
def bigInd : Range → Nat × Nat
  | [] => (0, 0)
  | r :: R => bigLoop R 1 (0, r.ind)

/-- The inner loop of `transform` (ten_impl.h:153-158): `op` is applied to `bigsize` pairs of
addresses, stepping both pointers. -/
def innerPairs (stepfrom stepto : Nat) (pfrom pto : Int) : Nat → List (Int × Int)
  | 0 => []
  | b + 1 => (pfrom, pto) :: innerPairs stepfrom stepto (pfrom + stepfrom) (pto + stepto) b

/-- One iteration of the outer loop (ten_impl.h:146-159). -/
def outerStep (src dst : Range) (stepfrom stepto bigsize : Nat) (i : List Nat) :
    Res (List (Int × Int)) :=
  (offset 0 dst i).bind fun pto =>
    (offset 0 src i).map fun pfrom => innerPairs stepfrom stepto pfrom pto bigsize

/-- Concatenate the outcomes of the outer iterations. -/
def outerAll (src dst : Range) (stepfrom stepto bigsize : Nat) : List RIter → Res (List (Int × Int))
  | [] => .ok []
  | s :: l => (outerStep src dst stepfrom stepto bigsize s.ind).bind fun p =>
      (outerAll src dst stepfrom stepto bigsize l).map (p ++ ·)

/-- `transform(from,to,op)` (ten_impl.h:107-160): the list of address pairs `(from,to)` to which `op`
is applied, in order. `fuel` bounds the outer range-for loop. `checkCompatible` is a DEBUG check. -/
def transformPairs (fuel : Nat) (src dst : Range) : Option (Res (List (Int × Int))) :=
  if dst.length = 0 then some (.ok [(0, 0)])
  else
    let b := bigInd src
    match src[b.1]?, dst[b.1]? with
    | some f, some t =>
      let R := computeStrides ((src.map fun r => (⟨r.ind, 0⟩ : IndStr)).set b.1 ⟨1, 0⟩)
      (RIter.forEach 0 R fuel (RIter.begin 0 R)).map fun res =>
        res.bind (outerAll src dst f.str t.str b.2)
    | _, _ => some .ub

/-- The effect on memory: `op` is applied to each pair in turn. The two memories are distinct
(no aliasing of `from` and `to`). -/
def applyPairs {α β} (op : α → β → β) (mf : Int → α) (l : List (Int × Int)) (mt : Int → β) : Int → β :=
  l.foldl (fun m p => fun a => if a = p.2 then op (mf p.1) (m a) else m a) mt

/-! ### lemmas -/

theorem bigLoop_spec (R : Range) (j : Nat) (b : Nat × Nat) :
    bigLoop R j b = b ∨ ∃ k r, R[k]? = some r ∧ bigLoop R j b = (j + k, r.ind) := by
  induction R generalizing j b with
  | nil => exact .inl rfl
  | cons r R ih =>
    simp only [bigLoop]
    rcases ih (j + 1) (if b.2 < r.ind then (j, r.ind) else b) with h | ⟨k, r', h1, h2⟩
    · rw [h]
      by_cases hb : b.2 < r.ind
      · rw [if_pos hb]; exact .inr ⟨0, r, by simp, by simp⟩
      · rw [if_neg hb]; exact .inl rfl
    · exact .inr ⟨k + 1, r', by simpa using h1, by rw [h2]; congr 1; omega⟩

theorem bigInd_spec (R : Range) (h : R ≠ []) :
    ∃ r, R[(bigInd R).1]? = some r ∧ r.ind = (bigInd R).2 := by
  cases R with
  | nil => exact absurd rfl h
  | cons r R =>
    simp only [bigInd]
    rcases bigLoop_spec R 1 (0, r.ind) with h | ⟨k, r', h1, h2⟩
    · rw [h]; exact ⟨r, by simp, rfl⟩
    · rw [h2]; refine ⟨r', ?_, rfl⟩
      rw [show 1 + k = k + 1 by omega]; simpa using h1

theorem innerPairs_eq (sf st : Nat) (pf pt : Int) (n : Nat) :
    innerPairs sf st pf pt n = (List.range n).map fun (b : Nat) => (pf + b * sf, pt + b * st) := by
  have : ∀ (n k : Nat) (pf pt : Int), innerPairs sf st (pf + k * sf) (pt + k * st) n =
      (List.range' k n).map fun (b : Nat) => (pf + b * sf, pt + b * st) := by
    intro n
    induction n with
    | zero => intros; rfl
    | succ n ih =>
      intro k pf pt
      have := ih (k + 1) pf pt
      simp only [innerPairs, List.range'_succ, List.map_cons]
      rw [← this]
      congr 2 <;> (push_cast; ring)
  have h := this n 0 pf pt
  simp only [Nat.cast_zero, Int.zero_mul, Int.add_zero] at h
  rw [h, List.range_eq_range']

theorem addr_set (R : Range) (i : List Nat) (n b : Nat) (r : IndStr) (hR : R[n]? = some r)
    (hi : i[n]? = some 0) : addr R (i.set n b) = addr R i + b * r.str := by
  induction R generalizing i n with
  | nil => simp at hR
  | cons r' R ih =>
    cases i with
    | nil => simp at hi
    | cons a is =>
      cases n with
      | zero => simp at hR hi; subst hR; subst hi; simp; ring
      | succ n =>
        simp only [List.set_cons_succ, addr_cons]
        rw [ih is n (by simpa using hR) (by simpa using hi)]; ring

theorem outerAll_eq (src dst : Range) (sf st bs : Nat) (l : List RIter)
    (h : ∀ s ∈ l, s.ind.length ≤ src.length ∧ s.ind.length ≤ dst.length) :
    outerAll src dst sf st bs l = .ok (l.flatMap fun s => (List.range bs).map fun (b : Nat) =>
      ((addr src s.ind : Int) + b * sf, (addr dst s.ind : Int) + b * st)) := by
  induction l with
  | nil => rfl
  | cons s l ih =>
    have hs := h s (by simp)
    simp only [outerAll, outerStep]
    rw [offset_zero_eq dst s.ind hs.2, offset_zero_eq src s.ind hs.1,
      ih (fun t ht => h t (by simp [ht]))]
    simp only [Res.bind_ok, Res.map_ok, List.flatMap_cons, innerPairs_eq]

theorem valid_iff_get {ds i : List Nat} :
    Valid ds i ↔ i.length = ds.length ∧ ∀ (n a d : Nat), i[n]? = some a → ds[n]? = some d → a < d := by
  constructor
  · intro h
    refine ⟨h.length_eq, ?_⟩
    induction h with
    | nil => simp
    | @cons a d is ds hh _ ih =>
      intro n x y hx hy
      cases n with
      | zero => simp at hx hy; subst hx; subst hy; exact hh
      | succ n => exact ih n x y (by simpa using hx) (by simpa using hy)
  · intro ⟨hl, h⟩
    induction ds generalizing i with
    | nil => have : i = [] := by simpa using hl
             subst this; exact .nil
    | cons d ds ih =>
      cases i with
      | nil => simp at hl
      | cons a is =>
        refine .cons (h 0 a d (by simp) (by simp)) (ih (by simpa using hl) ?_)
        intro n x y hx hy
        exact h (n + 1) x y (by simpa using hx) (by simpa using hy)

/-- Splitting off one index: running over the others with this one at 0, and then over its values,
enumerates all multi-indices once. -/
theorem split_perm (ds : List Nat) (n d : Nat) (hd : ds[n]? = some d) :
    ((allInds (ds.set n 1)).flatMap fun i => (List.range d).map fun b => i.set n b).Perm
      (allInds ds) := by
  have hn : n < ds.length := (List.getElem?_eq_some_iff.1 hd).1
  have hz : ∀ i, Valid (ds.set n 1) i → i[n]? = some 0 := by
    intro i hi
    obtain ⟨hl, h⟩ := valid_iff_get.1 hi
    have hl' : n < i.length := by rw [hl]; simpa using hn
    have := h n i[n] 1 (List.getElem?_eq_getElem hl') (List.getElem?_set_self hn)
    rw [List.getElem?_eq_getElem hl']; congr 1; omega
  refine (List.perm_ext_iff_of_nodup ?_ (allInds_nodup _)).2 ?_
  · rw [List.nodup_flatMap]
    refine ⟨fun i hi => ?_, ?_⟩
    · have h0 := hz i (mem_allInds.1 hi)
      have hl' : n < i.length := (List.getElem?_eq_some_iff.1 h0).1
      refine List.Nodup.map_on ?_ List.nodup_range
      intro a _ b _ h
      have := congrArg (fun l : List Nat => l[n]?) h
      simp only [List.getElem?_set_self hl'] at this
      simpa using this
    · refine (allInds_nodup (ds.set n 1)).imp_of_mem ?_
      intro i j hi hj hij
      rw [Function.onFun, List.disjoint_left]
      intro x hx hx'
      obtain ⟨a, _, rfl⟩ := List.mem_map.1 hx
      obtain ⟨b, _, hb⟩ := List.mem_map.1 hx'
      apply hij
      have hi' := mem_allInds.1 hi
      have hj' := mem_allInds.1 hj
      apply List.ext_getElem?
      intro m
      by_cases hm : m = n
      · subst hm; rw [hz i hi', hz j hj']
      · have := congrArg (fun l : List Nat => l[m]?) hb
        simp only [List.getElem?_set_ne (fun h : n = m => hm h.symm)] at this
        exact this.symm
  · intro x
    rw [List.mem_flatMap, mem_allInds]
    constructor
    · rintro ⟨i, hi, hx⟩
      obtain ⟨b, hb, rfl⟩ := List.mem_map.1 hx
      have hb := List.mem_range.1 hb
      obtain ⟨hl, h⟩ := valid_iff_get.1 (mem_allInds.1 hi)
      rw [valid_iff_get]
      refine ⟨by simpa using hl, ?_⟩
      intro m a e ha he
      by_cases hm : n = m
      · subst hm
        rw [hd] at he
        rw [List.getElem?_set_self (by rw [hl]; simpa using hn)] at ha
        simp at ha he; omega
      · rw [List.getElem?_set_ne hm] at ha
        exact h m a e ha (by rw [List.getElem?_set_ne hm]; exact he)
    · intro hx
      obtain ⟨hl, h⟩ := valid_iff_get.1 hx
      have hnx : n < x.length := by omega
      refine ⟨x.set n 0, ?_, ?_⟩
      · rw [mem_allInds, valid_iff_get]
        refine ⟨by simpa using hl, ?_⟩
        intro m a e ha he
        by_cases hm : n = m
        · subst hm
          rw [List.getElem?_set_self hnx] at ha
          rw [List.getElem?_set_self hn] at he
          simp at ha he; omega
        · rw [List.getElem?_set_ne hm] at ha he
          exact h m a e ha he
      · refine List.mem_map.2 ⟨x[n], List.mem_range.2 (h n _ d (List.getElem?_eq_getElem hnx) hd), ?_⟩
        rw [List.set_set]; exact List.set_getElem_self hnx

theorem rank_le_addr_max (ds : List Nat) (i : List Nat) (hi : Valid ds i) :
    addr (init ds) i < ds.prod := by
  rw [addr_init (valid_length hi)]; exact rank_lt hi

/-- The pairs touched by `transform`. -/
theorem transformPairs_spec (src dst : Range) (hext : src.extents = dst.extents)
    (hpos : ∀ d ∈ src.extents, 0 < d) (hmax : (src.extents.prod : Int) ≤ offMax)
    (fuel : Nat) (hf : src.extents.prod < fuel) :
    ∃ l, transformPairs fuel src dst = some (.ok l) ∧
      l.Perm ((allInds src.extents).map fun i => ((addr src i : Int), (addr dst i : Int))) := by
  have hlen : src.length = dst.length := by
    have := congrArg List.length hext; simpa [extents] using this
  by_cases h0 : dst.length = 0
  · have hs : src = [] := List.length_eq_zero_iff.1 (by omega)
    have hd : dst = [] := List.length_eq_zero_iff.1 h0
    subst hs; subst hd
    exact ⟨_, by rw [transformPairs]; rfl, by simp [allInds, extents, unrank]⟩
  · have hne : src ≠ [] := by intro h; subst h; simp at hlen; omega
    obtain ⟨f, hf1, hf2⟩ := bigInd_spec src hne
    generalize hb : bigInd src = b at hf1 hf2
    have hbl : b.1 < src.length := (List.getElem?_eq_some_iff.1 hf1).1
    have ht : dst[b.1]? = some dst[b.1] := List.getElem?_eq_getElem (by omega)
    set R := computeStrides ((src.map fun r => (⟨r.ind, 0⟩ : IndStr)).set b.1 ⟨1, 0⟩) with hR
    have hRe : R = init (src.extents.set b.1 1) := by
      rw [hR, computeStrides_eq]
      congr 1
      simp [extents, List.map_set, Function.comp_def]
    have hRx : R.extents = src.extents.set b.1 1 := by rw [hRe, extents_init]
    have hget : src.extents[b.1]? = some b.2 := by
      simp only [extents, List.getElem?_map, hf1, Option.map_some, hf2]
    have hle : (src.extents.set b.1 1).prod ≤ src.extents.prod := by
      have : ∀ (ds : List Nat) (n : Nat), (∀ d ∈ ds, 0 < d) → (ds.set n 1).prod ≤ ds.prod := by
        intro ds
        induction ds with
        | nil => intro n _; simp
        | cons d ds ih =>
          intro n h
          cases n with
          | zero => simp only [List.set_cons_zero, List.prod_cons]
                    exact Nat.mul_le_mul_right _ (h d (by simp))
          | succ n => simp only [List.set_cons_succ, List.prod_cons]
                      exact Nat.mul_le_mul_left _ (ih n fun x hx => h x (by simp [hx]))
      exact this _ _ hpos
    have hposR : ∀ d ∈ R.extents, 0 < d := by
      intro d hd
      rw [hRx] at hd
      rcases List.mem_or_eq_of_mem_set hd with h | h
      · exact hpos d h
      · omega
    have hRne : R ≠ [] := by
      intro h
      have : R.extents.length = 0 := by rw [h]; rfl
      rw [hRx] at this
      simp [extents] at this
      exact hne this
    have hprod : 1 ≤ R.extents.prod := by
      have hv : Valid R.extents (R.extents.map fun _ => 0) := by
        rw [valid_iff_get]
        refine ⟨by simp, ?_⟩
        intro n a d ha hd
        rw [List.getElem?_map, hd] at ha
        simp at ha
        have := hposR d (List.mem_of_getElem? hd)
        omega
      exact valid_pos hv
    have hloop := RIter.forEach_spec 0 R hRne hposR (fun i hi => by
      have h1 : addr R i < (src.extents.set b.1 1).prod := by
        rw [hRe]
        rw [hRx] at hi
        exact rank_le_addr_max _ i hi
      have h2 : (addr R i : Int) < src.extents.prod := by exact_mod_cast Nat.lt_of_lt_of_le h1 hle
      omega) R.extents.prod 0 fuel (by omega) hprod (by rw [hRx]; omega)
    rw [← RIter.begin_eq] at hloop
    have hall := outerAll_eq src dst f.str dst[b.1].str b.2
      ((List.range' 0 R.extents.prod).map (RIter.stateAt 0 R)) (by
        intro s hs
        obtain ⟨k, _, rfl⟩ := List.mem_map.1 hs
        have : R.length = src.length := by
          have := congrArg List.length hRx; simpa [extents] using this
        simp [RIter.stateAt, extents]
        omega)
    have htp : transformPairs fuel src dst = some (outerAll src dst f.str dst[b.1].str b.2
        ((List.range' 0 R.extents.prod).map (RIter.stateAt 0 R))) := by
      unfold transformPairs
      rw [if_neg h0]
      simp only [hb, hf1, ht]
      rw [← hR, hloop]
      simp only [Option.map_some, Res.bind_ok]
    rw [hall] at htp
    refine ⟨_, htp, ?_⟩
    · have e : ((List.range' 0 R.extents.prod).map (RIter.stateAt 0 R)).flatMap (fun s =>
          (List.range b.2).map fun (c : Nat) => ((addr src s.ind : Int) + c * f.str,
            (addr dst s.ind : Int) + c * dst[b.1].str)) =
          ((allInds (src.extents.set b.1 1)).flatMap fun i =>
            (List.range b.2).map fun c => i.set b.1 c).map
              fun i => ((addr src i : Int), (addr dst i : Int)) := by
        rw [List.map_flatMap, List.flatMap_map]
        unfold allInds
        rw [List.flatMap_map, hRx, List.range_eq_range' (n := (src.extents.set b.1 1).prod)]
        have hcongr : ∀ {β : Type} (l : List Nat) (f g : Nat → List β), (∀ k ∈ l, f k = g k) →
            l.flatMap f = l.flatMap g := by
          intro β l f g h
          induction l with
          | nil => rfl
          | cons a l ih => simp only [List.flatMap_cons]
                           rw [h a (by simp), ih fun k hk => h k (by simp [hk])]
        refine hcongr _ _ _ fun k hk => ?_
        rw [List.map_map]
        refine List.map_congr_left fun c _ => ?_
        have hk' : k < (src.extents.set b.1 1).prod := by
          rw [List.mem_range'_1] at hk; omega
        have hv := unrank_valid hk'
        have hz : (unrank (src.extents.set b.1 1) k)[b.1]? = some 0 := by
          obtain ⟨hl, h⟩ := valid_iff_get.1 hv
          have hl' : b.1 < (unrank (src.extents.set b.1 1) k).length := by
            rw [hl]; simpa [extents] using hbl
          have := h b.1 _ 1 (List.getElem?_eq_getElem hl')
            (List.getElem?_set_self (by simpa [extents] using hbl))
          rw [List.getElem?_eq_getElem hl']; congr 1; omega
        simp only [RIter.stateAt, hRx, Function.comp, Nat.add_zero, List.map_id']
        rw [addr_set src _ b.1 c f hf1 hz, addr_set dst _ b.1 c _ ht hz]
        push_cast
        rfl
      rw [e]
      exact (split_perm src.extents b.1 b.2 hget).map _

theorem applyPairs_spec {α β} (op : α → β → β) (mf : Int → α) (l : List (Int × Int)) (mt : Int → β)
    (hnd : (l.map (·.2)).Nodup) :
    (∀ p ∈ l, applyPairs op mf l mt p.2 = op (mf p.1) (mt p.2)) ∧
    (∀ a, a ∉ l.map (·.2) → applyPairs op mf l mt a = mt a) := by
  unfold applyPairs
  induction l generalizing mt with
  | nil => simp
  | cons q l ih =>
    simp only [List.map_cons, List.nodup_cons] at hnd
    obtain ⟨h1, h2⟩ := ih (fun a => if a = q.2 then op (mf q.1) (mt a) else mt a) hnd.2
    refine ⟨?_, ?_⟩
    · intro p hp
      rw [List.foldl_cons]
      rcases List.mem_cons.1 hp with rfl | hp
      · rw [h2 _ hnd.1]; simp
      · rw [h1 p hp]
        rw [if_neg]
        intro h
        exact hnd.1 (by rw [← h]; exact List.mem_map.2 ⟨p, hp, rfl⟩)
    · intro a ha
      simp only [List.map_cons, List.mem_cons, not_or] at ha
      rw [List.foldl_cons, h2 a ha.2, if_neg ha.1]

/-! ## C17 -/

/-- **C17.** `transform(from,to,op)` on tensors of equal (positive) extents, whatever their strides:
it stops, and the pairs of addresses to which `op` is applied are, up to order, exactly one for each
multi-index: its address in `from` with its address in `to`. -/
theorem C17_transform_pairs (src dst : Range) (hext : src.extents = dst.extents)
    (hpos : ∀ d ∈ src.extents, 0 < d) (hmax : (src.extents.prod : Int) ≤ offMax)
    (fuel : Nat) (hf : src.extents.prod < fuel) :
    ∃ l, transformPairs fuel src dst = some (.ok l) ∧
      l.Perm ((allInds src.extents).map fun i => ((addr src i : Int), (addr dst i : Int))) :=
  transformPairs_spec src dst hext hpos hmax fuel hf

/-- **C17.** If different multi-indices have different addresses in `to`, then after `transform` the
element of `to` at every multi-index is `op` of the element of `from` at the same multi-index and its
old value, and nothing else changed. With `op = (fun b _ => b)` this is `&=`, with addition `+=`. -/
theorem C17_transform {α β} (op : α → β → β) (src dst : Range) (hext : src.extents = dst.extents)
    (hpos : ∀ d ∈ src.extents, 0 < d) (hmax : (src.extents.prod : Int) ≤ offMax)
    (hinj : ∀ i j, Valid dst.extents i → Valid dst.extents j → addr dst i = addr dst j → i = j)
    (fuel : Nat) (hf : src.extents.prod < fuel) (mf : Int → α) (mt : Int → β) :
    ∃ l, transformPairs fuel src dst = some (.ok l) ∧
      (∀ i, Valid src.extents i →
        applyPairs op mf l mt (addr dst i) = op (mf (addr src i)) (mt (addr dst i))) ∧
      (∀ a, (∀ i, Valid src.extents i → (addr dst i : Int) ≠ a) → applyPairs op mf l mt a = mt a) := by
  obtain ⟨l, e, hp⟩ := transformPairs_spec src dst hext hpos hmax fuel hf
  have hnd : (l.map (·.2)).Nodup := by
    rw [(hp.map (·.2)).nodup_iff, List.map_map]
    refine List.Nodup.map_on ?_ (allInds_nodup _)
    intro i hi j hj h
    rw [mem_allInds, hext] at hi hj
    exact hinj i j hi hj (by simpa using h)
  obtain ⟨h1, h2⟩ := applyPairs_spec op mf l mt hnd
  refine ⟨l, e, ?_, ?_⟩
  · intro i hi
    exact h1 ((addr src i : Int), (addr dst i : Int))
      (hp.mem_iff.2 (List.mem_map.2 ⟨i, mem_allInds.2 hi, rfl⟩))
  · intro a ha
    apply h2
    intro hm
    obtain ⟨p, hp', rfl⟩ := List.mem_map.1 hm
    obtain ⟨i, hi, rfl⟩ := List.mem_map.1 (hp.mem_iff.1 hp')
    exact ha i (mem_allInds.1 hi) rfl

/-- hypotheses of `C17_transform` met by copying a transposed 2x3 view -/
example : transformPairs 7 [⟨2, 3⟩, ⟨3, 1⟩] (init [2, 3]) =
    some (.ok [(0, 0), (1, 2), (2, 4), (3, 1), (4, 3), (5, 5)]) := by decide

/-- **C17.** `permute(t,P)` (sliceten.h:118-124 through `permuteRange`): the view has at multi-index
`j` the element that `t` has at `i`, when `j[P[n]] = i[n]` for all `n`; extents move likewise. -/
theorem C17_permute_view (R : Range) (P : Permutation) (hP : IsPerm P) (hl : P.length = R.length) :
    ∃ R', permuteRange R P = .ok R' ∧ R'.length = R.length ∧
      (∀ (n d : Nat), P[n]? = some d → R'[d]? = R[n]?) ∧
      ∀ i j : List Nat, i.length = R.length → j.length = R.length →
        (∀ (n d : Nat), P[n]? = some d → j[d]? = i[n]?) → addr R' j = addr R i := by
  have e : ∀ (R : Range) (P : List Nat) (rb : Range), P.length = R.length →
      permLoop R P rb = permuteLoop P R rb := by
    intro R
    induction R with
    | nil => intro P rb h; have : P = [] := by simpa using h
             subst this; rfl
    | cons r R ih =>
      intro P rb h
      cases P with
      | nil => simp at h
      | cons p P => simp only [permLoop, permuteLoop]; split
                    · exact ih P _ (by simpa using h)
                    · rfl
  obtain ⟨R', e', h1, h2, _⟩ := permuteLoop_spec P R (List.replicate R.length ({} : IndStr))
    hl.symm hP.nodup (fun d hd => by have := hP.lt hd; simp; omega)
  refine ⟨R', by rw [permuteRange, e R P _ hl, e'], by simpa using h1, h2, ?_⟩
  intro i j hi hj hij
  have hlen' : R'.length = R.length := by simpa using h1
  -- addresses are sums over positions
  have sumform : ∀ (R : Range) (i : List Nat), i.length = R.length →
      addr R i = ((List.range R.length).map fun n =>
        ((R[n]?.map (·.str)).getD 0) * (i[n]?.getD 0)).sum := by
    intro R
    induction R with
    | nil => intro i _; simp
    | cons r R ih =>
      intro i h
      cases i with
      | nil => simp at h
      | cons a is =>
        rw [addr_cons, ih is (by simpa using h), List.length_cons, List.range_succ_eq_map,
          List.map_cons, List.sum_cons, List.map_map]
        simp [Function.comp_def]
  rw [sumform R' j (by omega), sumform R i hi, hlen']
  have hperm : P.Perm (List.range R.length) := by
    have := hP; unfold IsPerm at this; rwa [hl] at this
  rw [← (hperm.map fun n => ((R'[n]?.map (·.str)).getD 0) * (j[n]?.getD 0)).sum_eq]
  congr 1
  apply List.ext_getElem?
  intro n
  by_cases hn : n < R.length
  · have hPn : P[n]? = some P[n] := List.getElem?_eq_getElem (by omega)
    simp only [List.getElem?_map, hPn, List.getElem?_range hn, Option.map_some]
    rw [h2 n _ hPn, hij n _ hPn]
  · rw [List.getElem?_eq_none (by simp; omega), List.getElem?_eq_none (by simp; omega)]

example : permuteRange (init [2, 3, 4]) [2, 0, 1] = .ok [⟨3, 2⟩, ⟨4, 6⟩, ⟨2, 1⟩] := by decide

end Verif.Tensor
