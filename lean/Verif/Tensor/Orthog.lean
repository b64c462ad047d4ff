import Mathlib.Algebra.BigOperators.Group.Finset.Basic
import Mathlib.Algebra.BigOperators.Ring.Finset
import Mathlib.Algebra.Field.Basic
import Mathlib.Analysis.Real.Sqrt
import Mathlib.Tactic.Ring
import Mathlib.Tactic.FieldSimp
import Mathlib.Tactic.NormNum
import Mathlib.Tactic.Linarith

/-!
# C110: `orthog`

Source: `/repo/itensor/tensor/algs.cc`. Numbers are from a field, without rounding. The random numbers are a parameter. `--pass` for a suspect column (algs.cc:393) changes the copy of the
number that the range-based `for` makes, so it has no effect and is left out.
-/

namespace Verif.Orthog

open Finset Function

/-- What `orthog` uses: conjugation, `norm`, the test `nrm < 1E-10`, the vectors which `randomize` gives one after another, and the number of rows. -/
structure Env (K : Type*) [Field K] where
  conj : K →+* K
  nrm : (Nat → K) → K
  small : K → Prop
  dec : DecidablePred small
  rand : Nat → Nat → K
  rows : Nat

variable {K : Type*} [Field K] [DecidableEq K]

attribute [local instance] Env.dec

/-- `dag(u) * v` -/
def Env.dot (E : Env K) (u v : Nat → K) : K := ∑ r ∈ range E.rows, E.conj (u r) * v r

/-- `coli -= Mcols * (dag(Mcols) * coli)`. algs.cc:387-391 -/
def Env.proj (E : Env K) (M : Nat → Nat → K) (i : Nat) (v : Nat → K) : Nat → K := fun r => v r - ∑ k ∈ range i, M k r * E.dot (M k) v

/-- A column being worked on, and where random vectors were drawn so far: the column and the pass (0 before the first pass). -/
abbrev Work (K : Type*) := (Nat → K) × List (Nat × Nat)

/-- `if(bad) { randomize(coli); nrm = norm(coli); } coli /= nrm`. algs.cc:376-382, 394-399 -/
def Env.norml (E : Env K) (bad : Bool) (at' : Nat × Nat) (s : Work K) : Work K :=
  let v := if bad then E.rand s.2.length else s.1
  (fun r => v r / E.nrm v, if bad then s.2 ++ [at'] else s.2)

/-- One pass. algs.cc:385-400 -/
def Env.pass (E : Env K) (M : Nat → Nat → K) (i : Nat) (s : Work K) (p : Nat) : Work K :=
  let v := E.proj M i s.1
  haveI := E.dec
  E.norml (decide (E.small (E.nrm v))) (i, p) (v, s.2)

/-- The body of the loop over columns. algs.cc:373-401 -/
def Env.column (E : Env K) (numpass : Nat) (s : (Nat → Nat → K) × List (Nat × Nat)) (i : Nat) : (Nat → Nat → K) × List (Nat × Nat) :=
  let w := E.norml (decide (E.nrm (s.1 i) = 0)) (i, 0) (s.1 i, s.2)
  let w := if i = 0 then w else (List.range' 1 numpass).foldl (E.pass s.1 i) w
  (update s.1 i w.1, w.2)

/-- `orthog(M,numpass)` for a matrix given by its columns; also the random vectors drawn. algs.cc:364-404 -/
def Env.orthog (E : Env K) (ncols numpass : Nat) (M : Nat → Nat → K) : (Nat → Nat → K) × List (Nat × Nat) :=
  (List.range (min E.rows ncols)).foldl (E.column numpass) (M, [])

/-- What is known of the parameters: the square of the norm is the product with itself; a norm which is not small is not zero; random vectors are not zero. -/
structure Env.OK (E : Env K) : Prop where
  sq : ∀ v, E.nrm v * E.nrm v = E.dot v v
  real : ∀ v, E.conj (E.nrm v) = E.nrm v
  small : ∀ x, ¬ E.small x → x ≠ 0
  rand : ∀ n, E.nrm (E.rand n) ≠ 0

variable {E : Env K}

omit [DecidableEq K] in
theorem dot_div (u v : Nat → K) (x : K) : E.dot u (fun r => v r / x) = E.dot u v / x := by
  unfold Env.dot
  rw [div_eq_mul_inv, sum_mul]
  exact sum_congr rfl fun r _ => by ring

omit [DecidableEq K] in
theorem dot_div_left (u v : Nat → K) (x : K) : E.dot (fun r => u r / x) v = E.dot u v / E.conj x := by
  unfold Env.dot
  rw [div_eq_mul_inv, sum_mul]
  exact sum_congr rfl fun r _ => by rw [map_div₀]; ring

omit [DecidableEq K] in
theorem unit (h : E.OK) {v : Nat → K} (hv : E.nrm v ≠ 0) : E.dot (fun r => v r / E.nrm v) (fun r => v r / E.nrm v) = 1 := by
  rw [dot_div, dot_div_left, h.real, ← h.sq]
  field_simp

omit [DecidableEq K] in
/-- The projection is orthogonal to the columns before. -/
theorem dot_proj {M : Nat → Nat → K} {i : Nat} (hM : ∀ j < i, ∀ k < i, E.dot (M j) (M k) = if j = k then 1 else 0) {j : Nat} (hj : j < i) (v : Nat → K) :
    E.dot (M j) (E.proj M i v) = 0 := by
  have e : E.dot (M j) (E.proj M i v) = E.dot (M j) v - ∑ k ∈ range i, E.dot (M j) (M k) * E.dot (M k) v := by
    change ∑ r ∈ range E.rows, E.conj (M j r) * (v r - ∑ k ∈ range i, M k r * E.dot (M k) v) = _
    simp only [mul_sub, sum_sub_distrib]
    congr 1
    simp only [mul_sum]
    rw [sum_comm]
    refine sum_congr rfl fun k _ => ?_
    conv_rhs => rw [Env.dot, sum_mul]
    exact sum_congr rfl fun r _ => by ring
  rw [e, sum_congr rfl fun k hk => by rw [hM j hj k (mem_range.1 hk)]]
  simp [hj]

omit [DecidableEq K] in
theorem norml_draws (bad : Bool) (a : Nat × Nat) (s : Work K) : s.2 <+: (E.norml bad a s).2 := by
  unfold Env.norml
  cases bad <;> simp

omit [DecidableEq K] in
theorem pass_draws (M : Nat → Nat → K) (i : Nat) (s : Work K) (p : Nat) : s.2 <+: (E.pass M i s p).2 := norml_draws (E := E) _ _ (E.proj M i s.1, s.2)

omit [DecidableEq K] in
theorem passes_draws (M : Nat → Nat → K) (i : Nat) : ∀ (l : List Nat) (s : Work K), s.2 <+: (l.foldl (E.pass M i) s).2
  | [], _ => List.prefix_rfl
  | p :: l, s => (pass_draws M i s p).trans (passes_draws M i l _)

theorem column_draws (np : Nat) (s : (Nat → Nat → K) × List (Nat × Nat)) (i : Nat) : s.2 <+: (E.column np s i).2 := by
  unfold Env.column
  refine (norml_draws (E := E) (decide (E.nrm (s.1 i) = 0)) (i, 0) (s.1 i, s.2)).trans ?_
  by_cases h : i = 0
  · simp [h]
  · simp only [h, if_false]
    exact passes_draws _ _ _ _

omit [DecidableEq K] in
/-- The last pass makes the column orthogonal to those before, and of length one. -/
theorem pass_ortho (h : E.OK) {M : Nat → Nat → K} {i : Nat} (hM : ∀ j < i, ∀ k < i, E.dot (M j) (M k) = if j = k then 1 else 0) (s : Work K) (p : Nat)
    (hd : (i, p) ∉ (E.pass M i s p).2) : (∀ j < i, E.dot (M j) (E.pass M i s p).1 = 0) ∧ E.dot (E.pass M i s p).1 (E.pass M i s p).1 = 1 := by
  unfold Env.pass Env.norml at hd ⊢
  by_cases hs : E.small (E.nrm (E.proj M i s.1))
  · simp [hs] at hd
  · simp only [hs, decide_false, Bool.false_eq_true, if_false]
    refine ⟨fun j hj => ?_, unit h (h.small _ hs)⟩
    rw [dot_div, dot_proj hM hj, zero_div]

omit [DecidableEq K] in
theorem dot_comm_zero (h : ∀ x, E.conj (E.conj x) = x) {u v : Nat → K} (h0 : E.dot u v = 0) : E.dot v u = 0 := by
  have : E.conj (E.dot u v) = E.dot v u := by
    unfold Env.dot
    rw [map_sum]
    exact sum_congr rfl fun r _ => by rw [map_mul, h]; ring
  rw [← this, h0, map_zero]

/-- **C110, orthonormal columns.** If no random vector is drawn in the last pass of a column, the first min(rows,columns) columns of the result are orthonormal, and the others are as they were. -/
theorem C110_orthonormal_partial (h : E.OK) (hc : ∀ x, E.conj (E.conj x) = x) {ncols np : Nat} (hp : 1 ≤ np) (M : Nat → Nat → K)
    (hd : ∀ i, (i, np) ∉ (E.orthog ncols np M).2) :
    (∀ i < min E.rows ncols, ∀ j < min E.rows ncols, E.dot ((E.orthog ncols np M).1 i) ((E.orthog ncols np M).1 j) = if i = j then 1 else 0) ∧
      ∀ i, min E.rows ncols ≤ i → (E.orthog ncols np M).1 i = M i := by
  unfold Env.orthog at hd ⊢
  generalize min E.rows ncols = n at hd ⊢
  induction n with
  | zero => exact ⟨by simp, fun _ _ => rfl⟩
  | succ n ih =>
    rw [List.range_succ, List.foldl_append] at hd ⊢
    simp only [List.foldl_cons, List.foldl_nil] at hd ⊢
    set s := (List.range n).foldl (E.column np) (M, []) with hs
    obtain ⟨i1, i2⟩ := ih fun i hi => hd i ((column_draws np s n).subset hi)
    have hnew : (∀ j < n, E.dot (s.1 j) ((E.column np s n).1 n) = 0) ∧ E.dot ((E.column np s n).1 n) ((E.column np s n).1 n) = 1 := by
      have hd' := hd n
      unfold Env.column at hd' ⊢
      simp only [update_self]
      by_cases h0 : n = 0
      · refine ⟨fun j hj => absurd hj (by omega), ?_⟩
        simp only [h0, if_true]
        unfold Env.norml
        by_cases hz : E.nrm (s.1 0) = 0
        · simp only [hz, decide_true, if_true]
          exact unit h (h.rand _)
        · simp only [hz, decide_false, Bool.false_eq_true, if_false]
          exact unit h hz
      · simp only [h0, if_false] at hd' ⊢
        obtain ⟨q, rfl⟩ := Nat.exists_eq_add_of_le' hp
        rw [List.range'_concat, List.foldl_append] at hd' ⊢
        simp only [List.foldl_cons, List.foldl_nil, one_mul, Nat.add_comm 1 q] at hd' ⊢
        exact pass_ortho h i1 _ _ hd'
    have hold : ∀ k, k ≠ n → (E.column np s n).1 k = s.1 k := fun k hk => update_of_ne hk _ _
    refine ⟨fun i hi j hj => ?_, fun i hi => ?_⟩
    · rcases Nat.lt_succ_iff_lt_or_eq.1 hi with hi' | rfl <;> rcases Nat.lt_succ_iff_lt_or_eq.1 hj with hj' | rfl
      · rw [hold i (by omega), hold j (by omega)]
        exact i1 i hi' j hj'
      · rw [hold i (by omega), if_neg (by omega)]
        exact hnew.1 i hi'
      · rw [hold j (by omega), if_neg (by omega)]
        exact dot_comm_zero hc (hnew.1 j hj')
      · rw [if_pos rfl]
        exact hnew.2
    · rw [hold i (by omega)]
      exact i2 i (by omega)

/-! ### The span of the columns -/

/-- `u` is a multiple of `v`, not by zero, plus a combination of the first `i` columns. -/
def Comb (M : Nat → Nat → K) (i : Nat) (u v : Nat → K) : Prop := ∃ (a : K) (b : Nat → K), a ≠ 0 ∧ ∀ r, u r = a * v r + ∑ k ∈ range i, b k * M k r

omit [DecidableEq K] in
theorem Comb.trans {M : Nat → Nat → K} {i : Nat} {u v w : Nat → K} (h1 : Comb M i u v) (h2 : Comb M i v w) : Comb M i u w := by
  obtain ⟨a, b, h, e⟩ := h1
  obtain ⟨a', b', h', e'⟩ := h2
  refine ⟨a * a', fun k => a * b' k + b k, mul_ne_zero h h', fun r => ?_⟩
  rw [e, e', mul_add, mul_sum, add_assoc, ← sum_add_distrib, mul_assoc]
  congr 1
  exact sum_congr rfl fun k _ => by ring

omit [DecidableEq K] in
theorem pass_comb (h : E.OK) (M : Nat → Nat → K) (i : Nat) (s : Work K) (p : Nat) (hd : (E.pass M i s p).2 = []) : Comb M i s.1 (E.pass M i s p).1 := by
  unfold Env.pass Env.norml at hd ⊢
  by_cases hs : E.small (E.nrm (E.proj M i s.1))
  · simp [hs] at hd
  · simp only [hs, decide_false, Bool.false_eq_true, if_false]
    refine ⟨E.nrm (E.proj M i s.1), fun k => E.dot (M k) s.1, h.small _ hs, fun r => ?_⟩
    rw [mul_div_cancel₀ _ (h.small _ hs)]
    conv_rhs => rw [Env.proj]
    rw [sum_congr rfl fun k _ => mul_comm (E.dot (M k) s.1) (M k r)]
    ring

omit [DecidableEq K] in
theorem passes_comb (h : E.OK) (M : Nat → Nat → K) (i : Nat) : ∀ (l : List Nat) (s : Work K), (l.foldl (E.pass M i) s).2 = [] → Comb M i s.1 (l.foldl (E.pass M i) s).1
  | [], s, _ => ⟨1, fun _ => 0, one_ne_zero, fun r => by simp⟩
  | p :: l, s, hd => by
    have h1 : (E.pass M i s p).2 = [] := by
      have := passes_draws (E := E) M i l (E.pass M i s p)
      rw [show (l.foldl (E.pass M i) (E.pass M i s p)).2 = [] from hd] at this
      exact List.prefix_nil.1 this
    exact (pass_comb h M i s p h1).trans (passes_comb h M i l _ hd)

/-- **C110, span.** If no random vector is drawn, every column of the matrix is a combination of the columns of the result up to the same place, with a number which is not zero for the last: for
every `n` the first `n` columns span the same space as before. -/
theorem C110_span_partial (h : E.OK) {ncols np : Nat} (M : Nat → Nat → K) (hd : (E.orthog ncols np M).2 = []) {i : Nat} (hi : i < min E.rows ncols) :
    ∃ b : Nat → K, b i ≠ 0 ∧ ∀ r, M i r = ∑ k ∈ range (i + 1), b k * (E.orthog ncols np M).1 k r := by
  unfold Env.orthog at hd ⊢
  generalize min E.rows ncols = n at hd hi ⊢
  have key : ∀ n, ((List.range n).foldl (E.column np) (M, [])).2 = [] →
      (∀ i, n ≤ i → ((List.range n).foldl (E.column np) (M, [])).1 i = M i) ∧
      ∀ i < n, ∃ b : Nat → K, b i ≠ 0 ∧ ∀ r, M i r = ∑ k ∈ range (i + 1), b k * ((List.range n).foldl (E.column np) (M, [])).1 k r := by
    intro n
    induction n with
    | zero => exact fun _ => ⟨fun _ _ => rfl, by simp⟩
    | succ n ih =>
      intro hd
      rw [List.range_succ, List.foldl_append] at hd ⊢
      simp only [List.foldl_cons, List.foldl_nil] at hd ⊢
      set s := (List.range n).foldl (E.column np) (M, []) with hs
      have hs0 : s.2 = [] := by
        have := column_draws (E := E) np s n
        rw [hd] at this
        exact List.prefix_nil.1 this
      obtain ⟨i1, i2⟩ := ih hs0
      have hold : ∀ k, k ≠ n → (E.column np s n).1 k = s.1 k := fun k hk => update_of_ne hk _ _
      refine ⟨fun i hi => by rw [hold i (by omega)]; exact i1 i (by omega), fun i hi => ?_⟩
      rcases Nat.lt_succ_iff_lt_or_eq.1 hi with hi' | rfl
      · obtain ⟨b, b1, b2⟩ := i2 i hi'
        refine ⟨b, b1, fun r => (b2 r).trans (sum_congr rfl fun k hk => ?_)⟩
        rw [hold k (by have := mem_range.1 hk; omega)]
      · have hcomb : Comb s.1 i (M i) ((E.column np s i).1 i) := by
          rw [← i1 i le_rfl]
          unfold Env.column at hd ⊢
          simp only [update_self]
          set w := E.norml (decide (E.nrm (s.1 i) = 0)) (i, 0) (s.1 i, s.2) with hw
          have hw0 : w.2 = [] := by
            by_cases h0 : i = 0
            · simpa [h0] using hd
            · simp only [h0, if_false] at hd
              have := passes_draws (E := E) s.1 i (List.range' 1 np) w
              rw [hd] at this
              exact List.prefix_nil.1 this
          have hz : E.nrm (s.1 i) ≠ 0 := by
            intro hz
            rw [hw] at hw0
            unfold Env.norml at hw0
            simp [hz] at hw0
          have h1 : Comb s.1 i (s.1 i) w.1 := by
            refine ⟨E.nrm (s.1 i), fun _ => 0, hz, fun r => ?_⟩
            rw [hw]
            unfold Env.norml
            simp only [hz, decide_false, Bool.false_eq_true, if_false, zero_mul, sum_const_zero, add_zero]
            rw [mul_div_cancel₀ _ hz]
          by_cases h0 : i = 0
          · simp only [h0, if_true] at h1 ⊢
            exact h1
          · simp only [h0, if_false] at hd ⊢
            exact h1.trans (passes_comb h _ _ _ _ hd)
        obtain ⟨a, b, ha, e⟩ := hcomb
        refine ⟨update b i a, by simpa using ha, fun r => ?_⟩
        rw [sum_range_succ, update_self, e r, add_comm]
        congr 1
        refine sum_congr rfl fun k hk => ?_
        have hk' : k ≠ i := by have := mem_range.1 hk; omega
        rw [update_of_ne hk', hold k hk']
  exact (key n hd).2 i hi

end Verif.Orthog
