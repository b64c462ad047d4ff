import Verif.Tensor.GCounterLemmas
import Mathlib.Data.Nat.Lattice

/-!
# C14, C15, C57: addressing and iteration
-/

namespace Verif.Tensor

open Range

/-- **C14.** For a range built from extents `ds` (0- or 1-based: `start`), the offset of every
multi-index is in `[0, dim)`, different multi-indices have different offsets, and every number
in `[0, dim)` is the offset of a multi-index. `dim` is the product of the extents. -/
theorem C14_offset_bijection (start : Nat) (ds : List Nat) :
    (init ds).dim = ds.prod ∧
    (∀ i, Valid ds i → ∃ o : Int, offset start (init ds) (i.map (· + start)) = .ok o ∧
      0 ≤ o ∧ o < (init ds).dim) ∧
    (∀ i j, Valid ds i → Valid ds j →
      offset start (init ds) (i.map (· + start)) = offset start (init ds) (j.map (· + start)) → i = j) ∧
    (∀ o : Nat, o < (init ds).dim →
      ∃ i, Valid ds i ∧ offset start (init ds) (i.map (· + start)) = .ok (o : Int)) := by
  have hdim : (init ds).dim = ds.prod := by rw [dim_eq, extents_init]
  have hlen : (init ds).length = ds.length := by
    have := congrArg List.length (extents_init ds); simpa [extents] using this
  have key : ∀ i, Valid ds i →
      offset start (init ds) (i.map (· + start)) = .ok ((rank ds i : Nat) : Int) := by
    intro i hi
    rw [offset_eq _ _ _ (by rw [hlen, valid_length hi]), addr_init (valid_length hi)]
  refine ⟨hdim, fun i hi => ⟨_, key i hi, by omega, ?_⟩, ?_, ?_⟩
  · rw [hdim]; exact_mod_cast rank_lt hi
  · intro i j hi hj h
    rw [key i hi, key j hj] at h
    have : rank ds i = rank ds j := by simpa using h
    rw [← unrank_rank hi, this, unrank_rank hj]
  · intro o ho
    rw [hdim] at ho
    refine ⟨unrank ds o, unrank_valid ho, ?_⟩
    rw [key _ (unrank_valid ho), rank_unrank ho]

example : Valid [2, 3, 4] [1, 2, 3] ∧ offset 1 (init [2, 3, 4]) [2, 3, 4] = .ok 23 := by
  constructor
  · decide
  · rfl

/-- **C14.** The first index runs fastest: increasing it by one increases the offset by one, and
increasing index `n` by one increases it by the product of the extents before `n`. -/
theorem C14_column_major (ds : List Nat) (i : List Nat) (n x : Nat) (hi : i.length = ds.length)
    (hn : i[n]? = some x) :
    ∃ o : Int, offset 0 (init ds) i = .ok o ∧
      offset 0 (init ds) (i.set n (x + 1)) = .ok (o + (ds.take n).prod) := by
  have hlen : (init ds).length = ds.length := by
    have := congrArg List.length (extents_init ds); simpa [extents] using this
  refine ⟨_, offset_zero_eq _ _ (by omega), ?_⟩
  rw [offset_zero_eq _ _ (by simp; omega), addr_init hi, addr_init (by simpa using hi)]
  congr 1
  have : ∀ (ds i : List Nat) (n : Nat), i.length = ds.length → i[n]? = some x →
      rank ds (i.set n (x + 1)) = rank ds i + (ds.take n).prod := by
    intro ds
    induction ds with
    | nil => intro i n h1 h2; have : i = [] := by simpa using h1
             subst this; simp at h2
    | cons d ds ih =>
      intro i n h1 h2
      cases i with
      | nil => simp at h1
      | cons a is =>
        cases n with
        | zero => simp at h2; subst h2; simp [rank]; omega
        | succ n =>
          have := ih is n (by simpa using h1) (by simpa using h2)
          simp only [List.set_cons_succ, rank, List.take_succ_cons, List.prod_cons, this]
          ring
  rw [this ds i n hi hn]; push_cast; rfl

/-- **C15.** `for(auto& i : R)` over a range of any strides and positive extents: it stops, and it
visits every multi-index exactly once, in first-index-fastest order, reporting for each its own
offset. (`hmax`: no offset equals the reserved "done" value `2^64-1`.) -/
theorem C15_rangeIter (start : Nat) (R : Range) (hR : R ≠ [])
    (hpos : ∀ d ∈ R.extents, 0 < d) (hmax : ∀ i, Valid R.extents i → (addr R i : Int) < offMax)
    (fuel : Nat) (hf : R.extents.prod < fuel) :
    ∃ l, RIter.forEach start R fuel (RIter.begin start R) = some (.ok l) ∧
      l.map (·.ind) = (allInds R.extents).map (·.map (· + start)) ∧
      (l.map (·.ind)).Nodup ∧
      (∀ i, i.map (· + start) ∈ l.map (·.ind) ↔ Valid R.extents i) ∧
      ∀ s ∈ l, offset start R s.ind = .ok s.off := by
  have hp : 1 ≤ R.extents.prod := by
    have : ∀ ds : List Nat, (∀ d ∈ ds, 0 < d) → 0 < ds.prod := by
      intro ds
      induction ds with
      | nil => simp
      | cons d ds ih => intro h; simp only [List.prod_cons]
                        exact Nat.mul_pos (h _ (by simp)) (ih fun x hx => h x (by simp [hx]))
    exact this _ hpos
  refine ⟨(List.range' 0 R.extents.prod).map (RIter.stateAt start R), ?_, ?_, ?_, ?_, ?_⟩
  · rw [RIter.begin_eq]
    exact RIter.forEach_spec start R hR hpos hmax _ 0 fuel (by omega) hp hf
  · simp [allInds, List.range_eq_range', RIter.stateAt, Function.comp_def]
  · have e : ((List.range' 0 R.extents.prod).map (RIter.stateAt start R)).map (·.ind) =
        (allInds R.extents).map (·.map (· + start)) := by
      simp [allInds, List.range_eq_range', RIter.stateAt, Function.comp_def]
    rw [e]
    refine List.Nodup.map ?_ (allInds_nodup _)
    intro a b h
    exact List.map_injective_iff.2 (fun x y h => by simpa using h) h
  · intro i
    have e : ((List.range' 0 R.extents.prod).map (RIter.stateAt start R)).map (·.ind) =
        (allInds R.extents).map (·.map (· + start)) := by
      simp [allInds, List.range_eq_range', RIter.stateAt, Function.comp_def]
    rw [e, List.mem_map_of_injective, mem_allInds]
    intro a b h
    exact List.map_injective_iff.2 (fun x y h => by simpa using h) h
  · intro s hs
    obtain ⟨k, hk, rfl⟩ := List.mem_map.1 hs
    exact offset_eq start R _ (by simp [extents])

example : RIter.forEach 0 (init [2, 1, 2]) 5 (RIter.begin 0 (init [2, 1, 2])) =
    some (.ok [⟨0, [0, 0, 0]⟩, ⟨1, [1, 0, 0]⟩, ⟨2, [0, 0, 1]⟩, ⟨3, [1, 0, 1]⟩]) := by decide

/-- non-contiguous strides, 1-based -/
example : RIter.forEach 1 [⟨2, 10⟩, ⟨2, 3⟩] 5 (RIter.begin 1 [⟨2, 10⟩, ⟨2, 3⟩]) =
    some (.ok [⟨0, [1, 1]⟩, ⟨10, [2, 1]⟩, ⟨3, [1, 2]⟩, ⟨13, [2, 2]⟩]) := by decide

/-- **C15.** `GCounter` with initial values `fs` and final values `fs[j]+ds[j]-1`: the loop
`for(; C.notDone(); ++C)` stops, and visits every tuple with `fs[j] ≤ i[j] ≤ last[j]` exactly once,
first index fastest; `ind` counts the visits from 0 (so it is the column-major position). -/
theorem C15_gcounter (fs : List Int) (ds : List Nat) (hl : fs.length = ds.length) (hne : ds ≠ [])
    (hpos : ∀ d ∈ ds, 0 < d) (fuel : Nat) (hf : ds.prod < fuel) :
    ∃ l, GCounter.forEach fuel
        ⟨fs, List.zipWith (fun (f : Int) (d : Nat) => f + (d : Int) - 1) fs ds, fs, 0⟩ = some (.ok l) ∧
      l.map (·.i) = (allInds ds).map (fun i => List.zipWith (fun (f : Int) (i : Nat) => f + (i : Int)) fs i) ∧
      l.map (·.ind) = (List.range ds.prod).map (fun k => ((k : Nat) : Int)) := by
  have hp : 1 ≤ ds.prod := by
    have : ∀ ds : List Nat, (∀ d ∈ ds, 0 < d) → 0 < ds.prod := by
      intro ds
      induction ds with
      | nil => simp
      | cons d ds ih => intro h; simp only [List.prod_cons]
                        exact Nat.mul_pos (h _ (by simp)) (ih fun x hx => h x (by simp [hx]))
    exact this _ hpos
  have h0 : ∀ (fs : List Int) (ds : List Nat), fs.length = ds.length →
      GCounter.vals fs (unrank ds 0) = fs := by
    intro fs
    induction fs with
    | nil => intro ds _; simp [GCounter.vals]
    | cons f fs ih =>
      intro ds h
      cases ds with
      | nil => simp at h
      | cons d ds =>
        have := ih ds (by simpa using h)
        simp only [GCounter.vals] at this
        simp [GCounter.vals, unrank, this]
  refine ⟨(List.range' 0 ds.prod).map (GCounter.stateAt fs ds), ?_, ?_, ?_⟩
  · have := GCounter.forEach_spec fs ds hl hne hpos _ 0 fuel (by omega : ds.prod + 0 = ds.prod) hp hf
    rw [← this]
    unfold GCounter.stateAt
    rw [h0 fs ds hl]
    rfl
  · simp [allInds, List.range_eq_range', GCounter.stateAt, GCounter.vals, Function.comp_def]
  · simp [List.range_eq_range', GCounter.stateAt, Function.comp_def]

example : GCounter.forEach 5 ⟨[3, 0], [4, 1], [3, 0], 0⟩ =
    some (.ok [⟨[3, 0], [4, 1], [3, 0], 0⟩, ⟨[3, 0], [4, 1], [4, 0], 1⟩,
      ⟨[3, 0], [4, 1], [3, 1], 2⟩, ⟨[3, 0], [4, 1], [4, 1], 3⟩]) := by decide

/-- **C15, boundary.** A range-for loop over an order-0 range visits the single empty multi-index and
then increments, which is undefined; likewise `GCounter` over no index. -/
theorem C15_order_zero_ub (start fuel : Nat) :
    RIter.forEach start [] (fuel + 1) (RIter.begin start []) = some .ub ∧
    GCounter.forEach (fuel + 1) (GCounter.ofExtents []) = some .ub := ⟨rfl, rfl⟩

/-- **C15, boundary.** If the first extent is zero the range-for loop does not stop by itself: it is
never done within any number of steps for which the offset stays below the reserved value. -/
theorem C15_zero_extent_runs (R : Range) (str n : Nat)
    (hmax : (n : Int) * str < offMax) :
    RIter.forEach 0 (⟨0, str⟩ :: R) n (RIter.begin 0 (⟨0, str⟩ :: R)) = none := by
  have : ∀ (m k : Nat) (is : List Nat), ((m + k : Nat) : Int) * str < offMax →
      RIter.forEach 0 (⟨0, str⟩ :: R) m ⟨(k : Int) * str, k :: is⟩ = none := by
    intro m
    induction m with
    | zero => intros; rfl
    | succ m ih =>
      intro k is h
      have hnd : (⟨(k : Int) * str, k :: is⟩ : RIter).notDone = true := by
        simp only [RIter.notDone, bne_iff_ne, ne_eq]
        have : (k : Int) * str ≤ ((m + 1 + k : Nat) : Int) * str :=
          Int.mul_le_mul_of_nonneg_right (by push_cast; omega) (by omega)
        omega
      rw [RIter.forEach, if_pos hnd]
      have e : RIter.increment 0 (⟨0, str⟩ :: R) ⟨(k : Int) * str, k :: is⟩ =
          .ok ⟨((k + 1 : Nat) : Int) * str, (k + 1) :: is⟩ := by
        simp only [RIter.increment]
        rw [if_neg (by omega)]
        congr 2
        push_cast; ring
      simp only [e]
      rw [ih (k + 1) is (by rw [show m + (k + 1) = m + 1 + k by omega]; exact h)]
      rfl
  have := this n 0 (List.replicate R.length 0) (by simpa using hmax)
  simpa [RIter.begin, List.replicate_succ] using this

end Verif.Tensor
