import Verif.Base
import Mathlib.Tactic.Linarith
import Mathlib.Logic.Function.Iterate

/-!
# Sweep parameters and sweep order (`itensor/mps/sweeps.h`)
-/

namespace Verif.Sweeps

/-! ## The comma-list setter -/

/-- One entry of a comma list: a value, the option `{"Repeat",n}`, or a function of the sweep number
and the number of sweeps. sweeps.h:184-235. -/
inductive Item (T : Type*) where
  | val (x : T)
  | rep (n : Int)
  | func (f : Nat → Nat → T)

/-- `SweepSetter`: the vector (entry 0 unused), `j_` and `last_val_`. `nsweep_` is `v.length - 1`.
sweeps.h:153-250. `started_` is not modelled: the first entry is always given with `=`. -/
structure Setter (T : Type*) where
  v : List T
  j : Nat
  last : T
deriving DecidableEq

variable {T : Type*}

/-- Constructor: reads `v_[1]`, which is outside the vector if there are no sweeps. sweeps.h:158-166 -/
def mk (v : List T) : Res (Setter T) :=
  match v[1]? with
  | some x => .ok ⟨v, 1, x⟩
  | none => .ub

/-- `nsweep_`. sweeps.h:160 -/
def Setter.nsweep (s : Setter T) : Nat := s.v.length - 1

/-- `operator,(T val)`. sweeps.h:184-193 -/
def Setter.val (s : Setter T) (x : T) : Setter T :=
  if s.j > s.nsweep then s else ⟨s.v.set s.j x, s.j + 1, x⟩

/-- The loop of `operator,(Args)`, `k` iterations left. sweeps.h:202-206 -/
def Setter.repLoop (s : Setter T) : Nat → Setter T
  | 0 => s
  | k + 1 => if s.j > s.nsweep then s else Setter.repLoop ⟨s.v.set s.j s.last, s.j + 1, s.last⟩ k

/-- The loop of `operator,(Func f)` and of the destructor: entries `j_ .. nsweep_` are set with `f`;
`k` is the number of iterations left. sweeps.h:229-232, 170-173 -/
def fillLoop (f : Nat → T) : Nat → List T → Nat → List T
  | 0, v, _ => v
  | k + 1, v, j => fillLoop f k (v.set j (f j)) (j + 1)

/-- One entry of the list. sweeps.h:184-235. `v_.back()` of an empty vector does not occur: the
constructor has read `v_[1]`. -/
def Setter.item (s : Setter T) : Item T → Res (Setter T)
  | .val x => .ok (s.val x)
  | .rep n => if s.j = 1 then .throw else .ok (s.repLoop (n - 1).toNat)
  | .func f =>
    let v := fillLoop (fun j => f j s.nsweep) (s.nsweep + 1 - s.j) s.v s.j
    match v.getLast? with
    | some x => .ok ⟨v, max s.j (s.nsweep + 1), x⟩
    | none => .ub

/-- `setter = item, item, ...;` including the destructor at the end of the statement, for a list of
entries. sweeps.h:168-182. With no entries this is the bare call `setter();`. -/
def assign (v : List T) (items : List (Item T)) : Res (List T) :=
  (mk v).bind fun s => (Res.foldM Setter.item s items).bind fun s =>
    .ok (fillLoop (fun _ => s.last) (s.nsweep + 1 - s.j) s.v s.j)

/-! ## Tables -/

/-- The reading loop of `tableInit` over the rows in the file: the rows before the first whose `maxdim`
is zero; a missing row reads as zero. `z` tells whether a row has `maxdim` zero. sweeps.h:429-440 -/
def readRows (z : T → Bool) : Nat → List T → List T
  | 0, _ => []
  | _ + 1, [] => []
  | k + 1, r :: rs => if z r then [] else r :: readRows z k rs

/-- `tableInit`: the parameters (entry 0 is the zero row), all five columns in one row.
sweeps.h:413-451 -/
def tableInit (z : T → Bool) (zero : T) (nsweep : Nat) (rows : List T) : List T :=
  let rs := zero :: readRows z nsweep rows
  rs ++ List.replicate (nsweep + 1 - rs.length) (rs.getLast (by simp [rs]))

/-! ## Sweep order -/

/-- `sweepnext`: the pair is `(b, ha)`. sweeps.h:486-498. Machine integers are unbounded. -/
def next (N numCenter minb : Int) (s : Int × Int) : Int × Int :=
  let inc : Int := if s.2 = 1 then 1 else -1
  let b := s.1 + inc
  if b = (if s.2 = 1 then N + 2 - numCenter else minb - 1) then (b - inc, s.2 + 1) else (b, s.2)

/-! ## Lemmas -/

theorem fillLoop_get (f : Nat → T) : ∀ (k : Nat) (v : List T) (j i : Nat),
    (fillLoop f k v j)[i]? = if j ≤ i ∧ i < j + k ∧ i < v.length then some (f i) else v[i]? := by
  intro k
  induction k with
  | zero => intro v j i; rw [fillLoop, if_neg (by omega)]
  | succ k ih =>
    intro v j i
    rw [fillLoop, ih, List.length_set]
    by_cases h : j = i
    · subst h
      rw [if_neg (by omega), List.getElem?_set_self']
      by_cases hl : j < v.length
      · rw [if_pos ⟨le_refl _, by omega, hl⟩, List.getElem?_eq_getElem hl]; rfl
      · rw [if_neg (by omega), List.getElem?_eq_none (by omega)]; rfl
    · rw [List.getElem?_set_ne h]
      by_cases h2 : j ≤ i ∧ i < j + (k + 1) ∧ i < v.length
      · rw [if_pos h2, if_pos ⟨by omega, by omega, h2.2.2⟩]
      · rw [if_neg h2, if_neg (by omega)]

theorem fillLoop_length (f : Nat → T) : ∀ (k : Nat) (v : List T) (j : Nat), (fillLoop f k v j).length = v.length := by
  intro k
  induction k with
  | zero => intro v j; rfl
  | succ k ih => intro v j; rw [fillLoop, ih, List.length_set]

/-- The setter state after the values `E` have been given (those beyond the last sweep included). -/
structure Inv (v0 E : List T) (s : Setter T) : Prop where
  len : s.v.length = v0.length
  two : 2 ≤ v0.length
  j : s.j = min (E.length + 1) v0.length
  get : ∀ i, s.v[i]? = if 1 ≤ i ∧ i < v0.length ∧ i ≤ E.length then E[i - 1]? else v0[i]?
  last : E ≠ [] → E[s.j - 2]? = some s.last

theorem mk_inv {v : List T} (h : 2 ≤ v.length) : ∃ s, mk v = .ok s ∧ Inv v [] s := by
  refine ⟨⟨v, 1, v[1]⟩, by rw [mk, List.getElem?_eq_getElem (by omega)], rfl, h, ?_, ?_, by simp⟩
  · simp; omega
  · intro i
    rw [if_neg]
    simp; omega

theorem Inv.over {v0 E : List T} {s : Setter T} (h : Inv v0 E s) (hj : s.j > s.nsweep) (F : List T) :
    Inv v0 (E ++ F) s := by
  have h2 := h.two
  have hl := h.len
  have hjj := h.j
  simp only [Setter.nsweep] at hj
  have he : v0.length ≤ E.length + 1 := by omega
  refine ⟨h.len, h.two, by rw [List.length_append]; omega, fun i => ?_, fun _ => ?_⟩
  · rw [h.get]
    by_cases hi : 1 ≤ i ∧ i < v0.length ∧ i ≤ E.length
    · rw [if_pos hi, if_pos ⟨hi.1, hi.2.1, by rw [List.length_append]; omega⟩, List.getElem?_append_left (by omega)]
    · rw [if_neg hi, if_neg]; rintro ⟨a, b, _⟩; exact hi ⟨a, b, by omega⟩
  · have hne : E ≠ [] := by rintro rfl; simp at he; omega
    rw [List.getElem?_append_left (by omega)]
    exact h.last hne

theorem Inv.put {v0 E : List T} {s : Setter T} (h : Inv v0 E s) (hj : ¬ s.j > s.nsweep) (x : T) :
    Inv v0 (E ++ [x]) ⟨s.v.set s.j x, s.j + 1, x⟩ := by
  have h2 := h.two
  have hl := h.len
  have hjj := h.j
  simp only [Setter.nsweep] at hj
  have hje : s.j = E.length + 1 := by omega
  refine ⟨by simpa using h.len, h.two, ?_, fun i => ?_, fun _ => ?_⟩
  · rw [List.length_append, List.length_singleton]; dsimp only; omega
  · dsimp only
    by_cases hi : s.j = i
    · rw [← hi, List.getElem?_set_self (by omega), if_pos ⟨by omega, by omega, by simp; omega⟩, hje]
      simp
    · rw [List.getElem?_set_ne hi, h.get]
      by_cases hc : 1 ≤ i ∧ i < v0.length ∧ i ≤ E.length
      · rw [if_pos hc, if_pos ⟨hc.1, hc.2.1, by simp; omega⟩, List.getElem?_append_left (by omega)]
      · rw [if_neg hc, if_neg]
        rintro ⟨a, b, c⟩
        rw [List.length_append, List.length_singleton] at c
        exact hc ⟨a, b, by omega⟩
  · dsimp only
    rw [hje]; simp

theorem Inv.val {v0 E : List T} {s : Setter T} (h : Inv v0 E s) (x : T) : Inv v0 (E ++ [x]) (s.val x) := by
  unfold Setter.val
  split_ifs with hj
  · exact h.over hj _
  · exact h.put hj x

theorem Inv.rep {v0 : List T} {y : T} : ∀ (k : Nat) {E : List T} {s : Setter T}, Inv v0 E s → E.getLast? = some y →
    Inv v0 (E ++ List.replicate k y) (s.repLoop k) := by
  intro k
  induction k with
  | zero => intro E s h _; rw [Setter.repLoop]; simpa using h
  | succ k ih =>
    intro E s h hy
    rw [Setter.repLoop]
    split_ifs with hj
    · exact h.over hj _
    · have hne : E ≠ [] := by rintro rfl; simp at hy
      have hl := h.len
      have hjj := h.j
      have h2 := h.two
      have : s.last = y := by
        have h1 := h.last hne
        simp only [Setter.nsweep] at hj
        rw [List.getLast?_eq_getElem?] at hy
        rw [show s.j - 2 = E.length - 1 by omega, hy] at h1
        exact (Option.some.inj h1).symm
      rw [this]
      have := ih (h.put hj y) (by simp)
      rwa [List.append_assoc, List.singleton_append, ← List.replicate_succ] at this

/-! ## C38 -/

/-- The entries `x` or `x, {"Repeat",n}` of a comma list. -/
def runItems (runs : List (T × Nat)) : List (Item T) :=
  runs.flatMap fun r => if r.2 = 1 then [.val r.1] else [.val r.1, .rep r.2]

theorem runItems_inv {v0 : List T} : ∀ (runs : List (T × Nat)) {E : List T} {s : Setter T},
    (∀ r ∈ runs, 1 ≤ r.2) → Inv v0 E s →
    ∃ s', Res.foldM Setter.item s (runItems runs) = .ok s' ∧
      Inv v0 (E ++ runs.flatMap fun r => List.replicate r.2 r.1) s' := by
  intro runs
  induction runs with
  | nil => intro E s _ h; exact ⟨s, rfl, by simpa using h⟩
  | cons r runs ih =>
    intro E s hr h
    have h1 := h.val r.1
    have hr1 := hr r (by simp)
    rw [runItems, List.flatMap_cons, Res.foldM_append]
    have step : ∃ s1, Res.foldM Setter.item s (if r.2 = 1 then [Item.val r.1] else [.val r.1, .rep r.2]) = .ok s1 ∧
        Inv v0 (E ++ List.replicate r.2 r.1) s1 := by
      split_ifs with h2
      · exact ⟨_, rfl, by simpa [h2] using h1⟩
      · have hj : (s.val r.1).j ≠ 1 := by
          have a := h1.j; have b := h1.two
          simp only [List.length_append, List.length_singleton] at a; omega
        refine ⟨(s.val r.1).repLoop ((r.2 : Int) - 1).toNat, ?_, ?_⟩
        · simp only [Res.foldM_cons, Setter.item, Res.bind_ok, if_neg hj, Res.foldM_nil]
        · have := h1.rep ((r.2 : Int) - 1).toNat (y := r.1) (by simp)
          rwa [List.append_assoc, List.singleton_append, ← List.replicate_succ, show ((r.2 : Int) - 1).toNat + 1 = r.2 by omega] at this
    obtain ⟨s1, e1, i1⟩ := step
    rw [e1, Res.bind_ok]
    obtain ⟨s2, e2, i2⟩ := ih (fun r' h' => hr r' (by simp [h'])) i1
    exact ⟨s2, e2, by rwa [List.append_assoc] at i2⟩

/-- **C38.** A comma list of values, each optionally repeated, sets sweep 1, 2, ... to the values in
order and every later sweep to the last; values beyond the number of sweeps are ignored, entry 0 and
the length of the vector are unchanged. -/
theorem C38_list {v : List T} (hv : 2 ≤ v.length) {runs : List (T × Nat)} (hne : runs ≠ [])
    (hr : ∀ r ∈ runs, 1 ≤ r.2) :
    ∃ v', assign v (runItems runs) = .ok v' ∧ v'.length = v.length ∧ v'[0]? = v[0]? ∧
      ∀ i, 1 ≤ i → i < v.length → v'[i]? =
        let E := runs.flatMap fun r => List.replicate r.2 r.1
        if i ≤ E.length then E[i - 1]? else E.getLast? := by
  obtain ⟨s, e0, i0⟩ := mk_inv hv
  obtain ⟨s', e1, i1⟩ := runItems_inv runs hr i0
  rw [List.nil_append] at i1
  set E := runs.flatMap fun r => List.replicate r.2 r.1 with hE
  have hEne : E ≠ [] := by
    obtain ⟨r, rs, rfl⟩ := List.exists_cons_of_ne_nil hne
    have := hr r (by simp)
    obtain ⟨k, hk⟩ : ∃ k, r.2 = k + 1 := ⟨r.2 - 1, by omega⟩
    rw [hE, List.flatMap_cons, hk, List.replicate_succ]; simp
  have hjj := i1.j
  have hl := i1.len
  have hE1 : 1 ≤ E.length := List.length_pos_iff.2 hEne
  refine ⟨_, by rw [assign, e0, Res.bind_ok, e1, Res.bind_ok], by rw [fillLoop_length, hl], ?_, ?_⟩
  · rw [fillLoop_get, if_neg (by omega), i1.get, if_neg (by omega)]
  · intro i hi1 hi2
    dsimp only
    have hn : s'.nsweep = v.length - 1 := by rw [Setter.nsweep, hl]
    rw [fillLoop_get, hn]
    by_cases h : i ≤ E.length
    · rw [if_neg (by omega), i1.get, if_pos ⟨hi1, hi2, h⟩, if_pos h]
    · rw [if_pos (by omega), if_neg h, List.getLast?_eq_getElem?, ← i1.last hEne]
      congr 1; omega

/-- **C38, functions.** A comma list ending in a function uses the function for all later sweeps. -/
theorem C38_func {v : List T} (hv : 2 ≤ v.length) {runs : List (T × Nat)} (hr : ∀ r ∈ runs, 1 ≤ r.2)
    (f : Nat → Nat → T) :
    ∃ v', assign v (runItems runs ++ [.func f]) = .ok v' ∧ v'.length = v.length ∧ v'[0]? = v[0]? ∧
      ∀ i, 1 ≤ i → i < v.length → v'[i]? =
        let E := runs.flatMap fun r => List.replicate r.2 r.1
        if i ≤ E.length then E[i - 1]? else some (f i (v.length - 1)) := by
  obtain ⟨s, e0, i0⟩ := mk_inv hv
  obtain ⟨s', e1, i1⟩ := runItems_inv runs hr i0
  rw [List.nil_append] at i1
  set E := runs.flatMap fun r => List.replicate r.2 r.1 with hE
  have hjj := i1.j
  have hl := i1.len
  have hn : s'.nsweep = v.length - 1 := by rw [Setter.nsweep, hl]
  obtain ⟨x, hx⟩ : ∃ x, (fillLoop (fun j => f j s'.nsweep) (s'.nsweep + 1 - s'.j) s'.v s'.j).getLast? = some x := by
    rw [List.getLast?_eq_getElem?, fillLoop_length, List.getElem?_eq_getElem (by rw [fillLoop_length]; omega)]
    exact ⟨_, rfl⟩
  refine ⟨fillLoop (fun j => f j s'.nsweep) (s'.nsweep + 1 - s'.j) s'.v s'.j, ?_, by rw [fillLoop_length, hl], ?_, ?_⟩
  · rw [assign, e0, Res.bind_ok, Res.foldM_append, e1, Res.bind_ok, Res.foldM_cons]
    simp only [Setter.item, hx, Res.bind_ok, Res.foldM_nil]
    simp only [Setter.nsweep, fillLoop_length]
    rw [show s'.v.length - 1 + 1 - max s'.j (s'.v.length - 1 + 1) = 0 by omega]
    rfl
  · rw [fillLoop_get, if_neg (by omega), i1.get, if_neg (by omega)]
  · intro i hi1 hi2
    dsimp only
    rw [fillLoop_get]
    by_cases h : i ≤ E.length
    · rw [if_neg (by omega), i1.get, if_pos ⟨hi1, hi2, h⟩, if_pos h]
    · rw [if_pos (by omega), if_neg h, hn]

/-- **C38, boundary cases.** Without sweeps the setter reads outside the vector; a list starting with
`Repeat` throws; a bare call of the accessor overwrites every entry with the first. -/
theorem C38_boundary : assign ([7] : List Nat) [.val 3] = .ub ∧ assign ([0, 7, 8] : List Nat) [.rep 2] = .throw ∧
    assign ([0, 7, 8, 9] : List Nat) [] = .ok [0, 7, 7, 7] := by decide +kernel

theorem readRows_eq (z : T → Bool) : ∀ (k : Nat) (rows : List T),
    readRows z k rows = (rows.takeWhile fun r => !z r).take k := by
  intro k
  induction k with
  | zero => intro rows; simp [readRows]
  | succ k ih =>
    intro rows
    cases rows with
    | nil => simp [readRows]
    | cons r rows => by_cases h : z r <;> simp [readRows, h, ih]

/-- **C38, tables.** A table whose first row has a non-zero `maxdim` gives its rows, up to the first
with zero `maxdim`, to sweeps 1, 2, ... and the last such row to all later sweeps. -/
theorem C38_table (z : T → Bool) (zero : T) {nsweep : Nat} (h1 : 1 ≤ nsweep) {r : T} {rows : List T} (hz : z r = false) :
    (tableInit z zero nsweep (r :: rows)).length = nsweep + 1 ∧
    ∀ i, 1 ≤ i → i ≤ nsweep → (tableInit z zero nsweep (r :: rows))[i]? =
      let E := (r :: rows).takeWhile fun r => !z r
      if i ≤ E.length then E[i - 1]? else E.getLast? := by
  set E := (r :: rows).takeWhile fun r => !z r with hE
  have hEc : E ≠ [] := by simp [hE, hz]
  have hE1 : 1 ≤ E.length := List.length_pos_iff.2 hEc
  have hl : (readRows z nsweep (r :: rows)).length = min nsweep E.length := by
    rw [readRows_eq, List.length_take]
  have hget : ∀ i, (readRows z nsweep (r :: rows))[i]? = if i < nsweep then E[i]? else none := by
    intro i; rw [readRows_eq, List.getElem?_take]
  refine ⟨by simp [tableInit, hl], fun i hi1 hi2 => ?_⟩
  simp only [tableInit]
  by_cases h : i ≤ E.length
  · rw [if_pos h, List.getElem?_append_left (by simp [hl]; omega), List.getElem?_cons]
    rw [if_neg (by omega), hget, if_pos (by omega)]
  · rw [if_neg h, List.getElem?_append_right (by simp [hl]; omega), List.getElem?_replicate, if_pos (by simp [hl]; omega),
      List.getLast?_eq_getElem?, ← List.getLast?_eq_some_getLast, List.getLast?_eq_getElem?, List.length_cons,
      List.getElem?_cons, if_neg (by omega), Nat.add_sub_cancel, hget, if_pos (by omega), hl]
    congr 1; omega

/-! ## C39 -/

/-- **C39.** Starting at bond `b0` in the first half sweep, the loop visits `b0, ..., N+1-numCenter`
ascending, then `N+1-numCenter, ..., minb` descending in the second half sweep, and then `ha = 3`. -/
theorem C39_sweep {N nc minb b0 : Int} (h0 : minb ≤ b0) (h1 : b0 ≤ N + 1 - nc) :
    (∀ i : Nat, b0 + i ≤ N + 1 - nc → (next N nc minb)^[i] (b0, 1) = (b0 + i, 1)) ∧
    (∀ i : Nat, minb ≤ N + 1 - nc - i →
      (next N nc minb)^[(N + 2 - nc - b0).toNat + i] (b0, 1) = (N + 1 - nc - i, 2)) ∧
    (next N nc minb)^[(N + 2 - nc - b0).toNat + (N + 2 - nc - minb).toNat] (b0, 1) = (minb, 3) := by
  have up : ∀ i : Nat, b0 + i ≤ N + 1 - nc → (next N nc minb)^[i] (b0, 1) = (b0 + i, 1) := by
    intro i
    induction i with
    | zero => intro _; simp
    | succ i ih =>
      intro h
      rw [Function.iterate_succ_apply', ih (by push_cast at h; omega)]
      simp only [next, if_pos]
      rw [if_neg (by push_cast at h; omega)]
      push_cast; rw [Int.add_assoc]
  have turn : (next N nc minb)^[(N + 2 - nc - b0).toNat] (b0, 1) = (N + 1 - nc, 2) := by
    rw [show (N + 2 - nc - b0).toNat = (N + 1 - nc - b0).toNat + 1 by omega, Function.iterate_succ_apply', up _ (by omega)]
    simp only [next, if_pos]
    rw [if_pos (by omega)]
    ext <;> simp <;> omega
  have down : ∀ i : Nat, minb ≤ N + 1 - nc - i →
      (next N nc minb)^[(N + 2 - nc - b0).toNat + i] (b0, 1) = (N + 1 - nc - i, 2) := by
    intro i
    induction i with
    | zero => intro _; simpa using turn
    | succ i ih =>
      intro h
      rw [← Nat.add_assoc, Function.iterate_succ_apply', ih (by push_cast at h; omega)]
      simp only [next, show ¬ (2 : Int) = 1 by decide, if_false]
      rw [if_neg (by push_cast at h; omega)]
      push_cast; ext <;> simp <;> omega
  refine ⟨up, down, ?_⟩
  rw [show (N + 2 - nc - b0).toNat + (N + 2 - nc - minb).toNat = (N + 2 - nc - b0).toNat + (N + 1 - nc - minb).toNat + 1 by omega,
    Function.iterate_succ_apply', down _ (by omega)]
  simp only [next, show ¬ (2 : Int) = 1 by decide, if_false]
  rw [if_pos (by omega)]
  ext <;> simp <;> omega

/-- **C39, chains that are too short.** If there is no bond the loop never stops. -/
theorem C39_short {N nc minb b0 : Int} (h : N + 1 - nc < b0) (i : Nat) :
    (next N nc minb)^[i] (b0, 1) = (b0 + i, 1) := by
  induction i with
  | zero => simp
  | succ i ih =>
    rw [Function.iterate_succ_apply', ih]
    simp only [next, if_pos]
    rw [if_neg (by omega)]
    push_cast; rw [Int.add_assoc]

/-! Examples -/

example : assign ([0, 1, 1, 1, 1, 1] : List Nat) (runItems [(10, 1), (20, 2), (50, 1)]) = .ok [0, 10, 20, 20, 50, 50] := by
  decide +kernel
example : assign ([0, 1, 1] : List Nat) (runItems [(10, 1), (20, 2), (50, 1)]) = .ok [0, 10, 20] := by
  decide +kernel
example : assign ([0, 1, 1, 1] : List Nat) (runItems [(10, 1)] ++ [.func fun j n => j * n]) = .ok [0, 10, 6, 9] := by
  decide +kernel
example : tableInit (fun n : Nat => n == 0) 0 4 [10, 20, 0, 7] = [0, 10, 20, 20, 20] := by decide +kernel
example : (List.range 5).map (fun i => (next 3 2 1)^[i] (1, 1)) = [(1, 1), (2, 1), (2, 2), (1, 2), (1, 3)] := by decide +kernel

end Verif.Sweeps
