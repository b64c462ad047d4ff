import Verif.Base
import Mathlib.Data.List.Basic
import Mathlib.Data.List.Forall2
import Mathlib.Algebra.BigOperators.Group.List.Basic

/-!
# `product`, `zip` and `enumerate` of ranges

Source: `/repo/itensor/util/itertools.h:46-308`. Property C116. A range is a list; an iterator is a position in it; the end is
its length. The ranges of one call have elements of one type here, where the code takes a tuple of types. To dereference
the end, or to increment it, is undefined. A loop takes fuel: `none` is a loop that has not come to its end.
-/

namespace Verif.Itertools

variable {α : Type*}

/-- `*std::get<Is>(its)...`: every iterator is dereferenced. itertools.h:123-127, 160-163 -/
def deref : List (List α) → List Nat → Res (List α)
  | [], _ => .ok []
  | _ :: _, [] => .ub
  | r :: rs, p :: ps => match r[p]? with
    | none => .ub
    | some x => (deref rs ps).map (x :: ·)

/-! ## `product` -/

/-- `_increment<N>()`: the iterators from number `N` on. itertools.h:146-155 -/
def incr : List (List α) → List Nat → Res (List Nat)
  | [r], [p] => if p < r.length then .ok [p + 1] else .ub
  | r :: rs, p :: ps =>
    if p < r.length then
      if p + 1 = r.length then (incr rs ps).map (0 :: ·) else .ok ((p + 1) :: ps)
    else .ub
  | _, _ => .ub

/-- `equal(sentinel)`: only the last iterator is compared. itertools.h:158, 259-261 -/
def atEnd (rs : List (List α)) (ps : List Nat) : Bool := ps.getLast? == rs.getLast?.map List.length

/-- `for(auto t : product(ranges...))`: the tuples in the order in which they come. itertools.h:138-164, 239-262, 308 -/
def prodLoop (rs : List (List α)) : Nat → List Nat → Option (Res (List (List α)))
  | 0, _ => none
  | n + 1, ps =>
    if atEnd rs ps then some (.ok [])
    else match deref rs ps with
      | .ok t => match incr rs ps with
        | .ok ps' => (prodLoop rs n ps').map (Res.map (t :: ·))
        | .throw => some .throw
        | .ub => some .ub
      | .throw => some .throw
      | .ub => some .ub

/-- The loop from the beginnings of the ranges. itertools.h:140-144, 247-255 -/
def product (fuel : Nat) (rs : List (List α)) : Option (Res (List (List α))) := prodLoop rs fuel (rs.map fun _ => 0)

/-- All combinations, the leftmost changing fastest. -/
def combos : List (List α) → List (List α)
  | [] => [[]]
  | r :: rs => (combos rs).flatMap fun t => r.map (· :: t)

/-- The combinations from a position on. -/
def restOf : List (List α) → List Nat → List (List α)
  | [r], [p] => (r.drop p).map ([·])
  | r :: rs, p :: ps => match restOf rs ps with
    | [] => []
    | t :: ts => (r.drop p).map (· :: t) ++ ts.flatMap fun t => r.map (· :: t)
  | _, _ => []

/-- Positions within the ranges; only the last may be at the end. -/
def Valid : List (List α) → List Nat → Prop
  | [r], [p] => p ≤ r.length
  | r :: rs, p :: ps => p < r.length ∧ Valid rs ps
  | _, _ => False

theorem step_spec : ∀ (rs : List (List α)) (ps : List Nat), Valid rs ps →
    (atEnd rs ps = true → restOf rs ps = []) ∧
    (atEnd rs ps = false → ∃ t ps', deref rs ps = .ok t ∧ incr rs ps = .ok ps' ∧ Valid rs ps' ∧
      restOf rs ps = t :: restOf rs ps')
  | [], _, h => by simp [Valid] at h
  | _ :: _, [], h => by simp [Valid] at h
  | [r], [p], h => by
    simp only [Valid] at h
    refine ⟨fun he => ?_, fun he => ?_⟩
    · simp [atEnd] at he
      simp [restOf, he]
    · simp [atEnd] at he
      have hp : p < r.length := by omega
      refine ⟨[r[p]], [p + 1], by simp [deref, hp], by simp [incr, hp], hp, ?_⟩
      simp only [restOf]
      rw [List.drop_eq_getElem_cons hp]; rfl
  | [_], _ :: _ :: _, h => by simp [Valid] at h
  | _ :: _ :: _, [_], h => by simp [Valid] at h
  | r :: r' :: rs, p :: p' :: ps, h => by
    have h' : p < r.length ∧ Valid (r' :: rs) (p' :: ps) := h
    obtain ⟨hp, hv⟩ := h'
    have hae : atEnd (r :: r' :: rs) (p :: p' :: ps) = atEnd (r' :: rs) (p' :: ps) := by
      simp [atEnd, List.getLast?_cons_cons]
    obtain ⟨i1, i2⟩ := step_spec (r' :: rs) (p' :: ps) hv
    have hd : deref (r :: r' :: rs) (p :: p' :: ps) = (deref (r' :: rs) (p' :: ps)).map (r[p] :: ·) := by
      rw [deref, List.getElem?_eq_getElem hp]
    have hr : ∀ q, restOf (r :: r' :: rs) (q :: p' :: ps) = match restOf (r' :: rs) (p' :: ps) with
      | [] => []
      | t :: ts => (r.drop q).map (· :: t) ++ ts.flatMap fun t => r.map (· :: t) := fun q => rfl
    refine ⟨fun he => ?_, fun he => ?_⟩
    · rw [hr, i1 (hae ▸ he)]
    · obtain ⟨t, ps', d1, d2, d3, d4⟩ := i2 (hae ▸ he)
      refine ⟨r[p] :: t, ?_⟩
      by_cases hl : p + 1 = r.length
      · refine ⟨0 :: ps', by rw [hd, d1]; rfl, ?_, ?_, ?_⟩
        · simp only [incr]; rw [if_pos hp, if_pos hl, d2]; rfl
        · cases ps' with
          | nil => simp [Valid] at d3
          | cons q qs => exact ⟨by omega, d3⟩
        · rw [hr, d4]
          have e1 : (r.drop p).map (· :: t) = [r[p] :: t] := by
            rw [List.drop_eq_getElem_cons hp, List.drop_of_length_le (by omega)]; rfl
          simp only [e1, List.singleton_append, List.cons.injEq, true_and]
          cases ps' with
          | nil => simp [Valid] at d3
          | cons q qs =>
            show _ = (match restOf (r' :: rs) (q :: qs) with
              | [] => []
              | t :: ts => (r.drop 0).map (· :: t) ++ ts.flatMap fun t => r.map (· :: t))
            cases restOf (r' :: rs) (q :: qs) <;> simp
      · refine ⟨(p + 1) :: p' :: ps, by rw [hd, d1]; rfl, ?_, ⟨by omega, hv⟩, ?_⟩
        · simp only [incr]; rw [if_pos hp, if_neg hl]
        · rw [hr, hr, d4]
          simp only []
          rw [List.drop_eq_getElem_cons hp]; rfl

theorem prodLoop_spec (rs : List (List α)) : ∀ (n : Nat) (ps : List Nat), Valid rs ps → (restOf rs ps).length < n →
    prodLoop rs n ps = some (.ok (restOf rs ps))
  | 0, _, _, h => by omega
  | n + 1, ps, hv, h => by
    obtain ⟨i1, i2⟩ := step_spec rs ps hv
    simp only [prodLoop]
    cases he : atEnd rs ps with
    | true => simp [i1 he]
    | false =>
      obtain ⟨t, ps', d1, d2, d3, d4⟩ := i2 he
      rw [d4] at h ⊢
      have := prodLoop_spec rs n ps' d3 (by simpa using h)
      simp [d1, d2, this]

theorem restOf_zero : ∀ rs : List (List α), rs ≠ [] → restOf rs (rs.map fun _ => 0) = combos rs
  | [], h => absurd rfl h
  | [r], _ => by simp [restOf, combos, List.map_eq_flatMap]
  | r :: r' :: rs, _ => by
    have ih := restOf_zero (r' :: rs) (by simp)
    show (match restOf (r' :: rs) ((r' :: rs).map fun _ => 0) with
      | [] => []
      | t :: ts => (r.drop 0).map (· :: t) ++ ts.flatMap fun t => r.map (· :: t)) = _
    rw [ih]
    conv_rhs => rw [combos]
    cases combos (r' :: rs) <;> simp

theorem valid_zero : ∀ rs : List (List α), rs ≠ [] → (∀ r ∈ rs.dropLast, r ≠ []) → Valid rs (rs.map fun _ => 0)
  | [], h, _ => absurd rfl h
  | [r], _, _ => Nat.zero_le _
  | r :: r' :: rs, _, h => by
    refine ⟨List.length_pos_iff.2 (h r (by simp)), valid_zero (r' :: rs) (by simp) fun s hs => h s ?_⟩
    simp only [List.dropLast_cons_cons, List.mem_cons]
    exact .inr hs

theorem combos_length : ∀ rs : List (List α), (combos rs).length = (rs.map List.length).prod
  | [] => rfl
  | r :: rs => by
    rw [combos, List.length_flatMap]
    simp [combos_length rs, Nat.mul_comm]

theorem mem_combos : ∀ (rs : List (List α)) (t : List α), t ∈ combos rs ↔ List.Forall₂ (· ∈ ·) t rs
  | [], t => by simp [combos]
  | r :: rs, t => by
    simp only [combos, List.mem_flatMap, List.mem_map]
    constructor
    · rintro ⟨u, hu, x, hx, rfl⟩
      exact .cons hx ((mem_combos rs u).1 hu)
    · intro h
      cases h with
      | cons hx hu => exact ⟨_, (mem_combos rs _).2 hu, _, hx, rfl⟩

/-- The place of a combination: that of the first range counts once, that of the second as often as the first is long, and so on. -/
def place : List (List α) → List Nat → Nat
  | r :: rs, p :: ps => p + r.length * place rs ps
  | _, _ => 0

theorem getElem?_flatMap_map {β γ : Type*} (r : List β) (f : γ → β → List α) : ∀ (l : List γ) (p q : Nat), p < r.length →
    (l.flatMap fun t => r.map (f t))[p + r.length * q]? = (l[q]?).bind fun t => (r[p]?).map (f t)
  | [], p, q, _ => by simp
  | t :: l, p, 0, hp => by simp [List.getElem?_append, hp]
  | t :: l, p, q + 1, hp => by
    have ih := getElem?_flatMap_map r f l p q hp
    rw [List.flatMap_cons, List.getElem?_append_right (by simp; rw [Nat.mul_add]; omega)]
    rw [show p + r.length * (q + 1) - (r.map (f t)).length = p + r.length * q by simp; rw [Nat.mul_add]; omega, ih]
    simp

theorem combos_place : ∀ (rs : List (List α)) (ps : List Nat), List.Forall₂ (fun p r => p < r.length) ps rs →
    ∃ t, (combos rs)[place rs ps]? = some t ∧ t.map some = List.zipWith (fun r p => r[p]?) rs ps
  | [], _, h => by cases h; exact ⟨[], rfl, rfl⟩
  | r :: rs, _, h => by
    cases h with
    | @cons p _ ps _ hp hs =>
      obtain ⟨t, h1, h2⟩ := combos_place rs ps hs
      refine ⟨r[p] :: t, ?_, ?_⟩
      · simp only [combos, place]
        rw [getElem?_flatMap_map r (fun t x => x :: t) _ p _ hp, h1]
        simp [hp]
      · simp [hp, h2]

/-- C116 (`product`). For one or more ranges, none of which but the last may be empty, the loop ends without undefined behaviour and
gives every combination of elements and nothing else: as many tuples as the product of the lengths, and the tuple of the elements at
`ps` in the place which counts the leftmost position fastest. -/
theorem C116_product_partial (rs : List (List α)) (hne : rs ≠ []) (h : ∀ r ∈ rs.dropLast, r ≠ []) :
    ∃ out, (∃ n, ∀ fuel ≥ n, product fuel rs = some (.ok out)) ∧
      out.length = (rs.map List.length).prod ∧
      (∀ t, t ∈ out ↔ List.Forall₂ (· ∈ ·) t rs) ∧
      ∀ ps, List.Forall₂ (fun p r => p < r.length) ps rs → ∃ t, out[place rs ps]? = some t ∧
        t.map some = List.zipWith (fun r p => r[p]?) rs ps := by
  refine ⟨combos rs, ⟨(combos rs).length + 1, fun fuel hf => ?_⟩, combos_length rs, mem_combos rs, combos_place rs⟩
  have := prodLoop_spec rs fuel _ (valid_zero rs hne h) (by rw [restOf_zero rs hne]; omega)
  rw [product, this, restOf_zero rs hne]

/-- Two ranges of different lengths: the documentation of `product` asks for equal lengths, which is not needed. -/
example : product 9 [[1, 2], [10, 20, 30]] =
    some (.ok [[1, 10], [2, 10], [1, 20], [2, 20], [1, 30], [2, 30]]) := by decide +kernel

/-- An empty range at the end. -/
example : product 9 [[1, 2], []] = some (.ok []) := by decide +kernel

/-- Against C116: when a range other than the last is empty, and the last is not, there are no combinations, but the loop
dereferences the end of the empty range. It does so for all such ranges. -/
theorem C116_empty_counterexample (rs : List (List α)) (r : List α) (hr : [] ∈ rs) (hl : r ≠ []) (fuel : Nat) :
    (∀ t, ¬List.Forall₂ (· ∈ ·) t (rs ++ [r])) ∧ product (fuel + 1) (rs ++ [r]) = some .ub := by
  constructor
  · intro t ht
    obtain ⟨i, hi, e⟩ := List.getElem_of_mem (List.mem_append_left [r] hr)
    have hl := ht.length_eq
    have := (List.forall₂_iff_get.1 ht).2 i (by omega) hi
    simp only [List.get_eq_getElem] at this
    rw [e] at this
    simp at this
  · have hd : ∀ rs : List (List α), [] ∈ rs → deref (rs ++ [r]) ((rs ++ [r]).map fun _ => 0) = .ub := by
      intro rs
      induction rs with
      | nil => simp
      | cons s rs ih =>
        intro hm
        cases s with
        | nil => simp [deref]
        | cons x s =>
          have := ih (by simpa using hm)
          simp only [List.cons_append, List.map_cons, deref, List.getElem?_cons_zero]
          rw [this]; rfl
    have he : atEnd (rs ++ [r]) ((rs ++ [r]).map fun _ => 0) = false := by
      have : r.length ≠ 0 := by simpa using hl
      simp [atEnd]; omega
    simp only [product, prodLoop, he, hd rs hr]
    rfl

/-- Three ranges, the second empty. -/
example : product 9 [[1, 2], [], [3]] = some .ub := by decide +kernel

/-! ## `zip` -/

/-- The loop over `zip(ranges...)`: all iterators are compared with all ends, and all are incremented. itertools.h:112-128, 203-235 -/
def zipLoop (rs : List (List α)) : Nat → List Nat → Option (Res (List (List α)))
  | 0, _ => none
  | n + 1, ps =>
    if ps = rs.map List.length then some (.ok [])
    else match deref rs ps with
      | .ok t => (zipLoop rs n (ps.map (· + 1))).map (Res.map (t :: ·))
      | .throw => some .throw
      | .ub => some .ub

/-- `zip(ranges...)`. itertools.h:295 -/
def zip (fuel : Nat) (rs : List (List α)) : Option (Res (List (List α))) := zipLoop rs fuel (rs.map fun _ => 0)

theorem deref_const (k : Nat) : ∀ rs : List (List α), (∀ r ∈ rs, k < r.length) →
    ∃ t, deref rs (rs.map fun _ => k) = .ok t ∧ t.map some = rs.map (·[k]?)
  | [], _ => ⟨[], rfl, rfl⟩
  | r :: rs, h => by
    obtain ⟨t, h1, h2⟩ := deref_const k rs fun s hs => h s (by simp [hs])
    have hk := h r (by simp)
    exact ⟨r[k] :: t, by
      simp only [List.map_cons, deref, List.getElem?_eq_getElem hk, h1]; rfl, by simp [h2, hk]⟩

theorem deref_const_ub (k : Nat) : ∀ rs : List (List α), (∃ r ∈ rs, r.length ≤ k) → deref rs (rs.map fun _ => k) = .ub
  | [], h => by simp at h
  | r :: rs, h => by
    simp only [List.map_cons, deref]
    by_cases hk : r.length ≤ k
    · rw [List.getElem?_eq_none hk]
    · rw [List.getElem?_eq_getElem (by omega)]
      obtain ⟨s, hs, hl⟩ := h
      rw [deref_const_ub k rs ⟨s, by
        rcases List.mem_cons.1 hs with rfl | hs
        · omega
        · exact hs, hl⟩]
      rfl

theorem zipLoop_spec (rs : List (List α)) (n : Nat) (hne : rs ≠ []) (hn : ∀ r ∈ rs, r.length = n) :
    ∀ (d k fuel : Nat), k + d = n → d < fuel → ∃ out, zipLoop rs fuel (rs.map fun _ => k) = some (.ok out) ∧ out.length = d ∧
      ∀ i < d, (out[i]?).map (List.map some) = some (rs.map (·[k + i]?))
  | 0, k, fuel + 1, hk, _ => by
    refine ⟨[], ?_, rfl, fun i hi => by omega⟩
    simp only [zipLoop]
    rw [if_pos]
    exact List.map_congr_left fun r hr => by rw [hn r hr]; omega
  | d + 1, k, fuel + 1, hk, hf => by
    obtain ⟨out, h1, h2, h3⟩ := zipLoop_spec rs n hne hn d (k + 1) fuel (by omega) (by omega)
    obtain ⟨t, t1, t2⟩ := deref_const k rs fun r hr => by rw [hn r hr]; omega
    refine ⟨t :: out, ?_, by simp [h2], fun i hi => ?_⟩
    · simp only [zipLoop]
      rw [if_neg, t1]
      · simp only [List.map_map]
        have : ((fun x => x + 1) ∘ fun _ : List α => k) = fun _ => k + 1 := rfl
        rw [this, h1]; rfl
      · intro e
        obtain ⟨r, hr⟩ := List.exists_mem_of_ne_nil rs hne
        have := List.map_inj_left.1 e r hr
        have := hn r hr
        omega
    · cases i with
      | zero => simp [t2]
      | succ i =>
        have := h3 i (by omega)
        rw [List.getElem?_cons_succ, this, show k + (i + 1) = k + 1 + i by omega]
  | 0, _, 0, _, h => by omega
  | _ + 1, _, 0, _, h => by omega

/-- C116 (`zip`). For one or more ranges of the same length `n` the loop gives `n` tuples, the `i`-th with the `i`-th element of every
range. -/
theorem C116_zip (rs : List (List α)) (hne : rs ≠ []) (n : Nat) (hn : ∀ r ∈ rs, r.length = n) (fuel : Nat) (hf : n < fuel) :
    ∃ out, zip fuel rs = some (.ok out) ∧ out.length = n ∧
      ∀ i < n, (out[i]?).map (List.map some) = some (rs.map (·[i]?)) := by
  obtain ⟨out, h1, h2, h3⟩ := zipLoop_spec rs n hne hn n 0 fuel (by omega) hf
  exact ⟨out, h1, h2, fun i hi => by simpa using h3 i hi⟩

example : zip 4 [[1, 2, 3], [4, 5, 6]] = some (.ok [[1, 4], [2, 5], [3, 6]]) := by decide +kernel

/-- C116 (`zip`, the condition is needed). For ranges of different lengths the loop always dereferences an end. -/
theorem C116_zip_unequal (rs : List (List α)) (r s : List α) (hr : r ∈ rs) (hs : s ∈ rs) (h : r.length < s.length) (fuel : Nat)
    (hf : r.length < fuel) : zip fuel rs = some .ub := by
  have key : ∀ (d k fuel : Nat), k + d = r.length → d < fuel → zipLoop rs fuel (rs.map fun _ => k) = some .ub := by
    intro d
    induction d with
    | zero =>
      intro k fuel hk hf
      obtain ⟨fuel, rfl⟩ : ∃ m, fuel = m + 1 := ⟨fuel - 1, by omega⟩
      simp only [zipLoop]
      rw [if_neg, deref_const_ub k rs ⟨r, hr, by omega⟩]
      intro e
      have := List.map_inj_left.1 e s hs
      omega
    | succ d ih =>
      intro k fuel hk hf
      obtain ⟨fuel, rfl⟩ : ∃ m, fuel = m + 1 := ⟨fuel - 1, by omega⟩
      simp only [zipLoop]
      rw [if_neg]
      · by_cases hb : ∃ q ∈ rs, q.length ≤ k
        · rw [deref_const_ub k rs hb]
        · obtain ⟨t, t1, _⟩ := deref_const k rs fun q hq => by
            by_contra hc
            exact hb ⟨q, hq, by omega⟩
          rw [t1]
          simp only [List.map_map]
          have : ((fun x => x + 1) ∘ fun _ : List α => k) = fun _ => k + 1 := rfl
          rw [this, ih (k + 1) fuel (by omega) (by omega)]; rfl
      · intro e
        have := List.map_inj_left.1 e s hs
        omega
  exact key r.length 0 fuel (by omega) hf

example : zip 9 [[1, 2], [4, 5, 6]] = some .ub := by decide +kernel

/-! ## `enumerate` -/

/-- The loop over `enumerate(range)`: position and number. itertools.h:76-91, 186-199, 287 -/
def enumLoop (r : List α) : Nat → Nat → Nat → Option (Res (List (Nat × α)))
  | 0, _, _ => none
  | n + 1, p, i =>
    if p = r.length then some (.ok [])
    else match r[p]? with
      | some x => (enumLoop r n (p + 1) (i + 1)).map (Res.map ((i, x) :: ·))
      | none => some .ub

/-- C116 (`enumerate`). Every element once, in order, with its position counted from zero. -/
theorem C116_enumerate (r : List α) (fuel : Nat) (hf : r.length < fuel) :
    ∃ out, enumLoop r fuel 0 0 = some (.ok out) ∧ out.length = r.length ∧ ∀ i : Nat, out[i]? = (r[i]?).map (Prod.mk i) := by
  have key : ∀ (d k fuel : Nat), k + d = r.length → d < fuel → ∃ out, enumLoop r fuel k k = some (.ok out) ∧ out.length = d ∧
      ∀ i : Nat, out[i]? = (r[k + i]?).map (Prod.mk (k + i)) := by
    intro d
    induction d with
    | zero =>
      intro k fuel hk hf
      obtain ⟨fuel, rfl⟩ : ∃ m, fuel = m + 1 := ⟨fuel - 1, by omega⟩
      refine ⟨[], by simp [enumLoop]; omega, rfl, fun i => ?_⟩
      rw [List.getElem?_eq_none (by simp), List.getElem?_eq_none (by omega)]; rfl
    | succ d ih =>
      intro k fuel hk hf
      obtain ⟨fuel, rfl⟩ : ∃ m, fuel = m + 1 := ⟨fuel - 1, by omega⟩
      obtain ⟨out, h1, h2, h3⟩ := ih (k + 1) fuel (by omega) (by omega)
      have hkl : k < r.length := by omega
      refine ⟨(k, r[k]) :: out, ?_, by simp [h2], fun i => ?_⟩
      · simp only [enumLoop]
        rw [if_neg (by omega), List.getElem?_eq_getElem hkl]
        simp [h1]
      · cases i with
        | zero => simp [hkl]
        | succ i => rw [List.getElem?_cons_succ, h3 i, show k + (i + 1) = k + 1 + i by omega]
  obtain ⟨out, h1, h2, h3⟩ := key r.length 0 fuel (by omega) hf
  exact ⟨out, h1, h2, fun i => by simpa using h3 i⟩

example : enumLoop ["a", "b"] 3 0 0 = some (.ok [(0, "a"), (1, "b")]) := by decide +kernel

end Verif.Itertools
