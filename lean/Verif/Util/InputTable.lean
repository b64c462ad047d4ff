import Verif.Util.InputC83

/-!
# C84: the table of sweeps (itensor/mps/sweeps.h)

`Sweeps(nsweep,table)` reads a table from an input file.  With `m ≥ 1` rows of five columns below the line of
headings, sweep `i` has the parameters of row `min(i,m)`.

Simplifications: how a `Real` is read is a parameter `rd` (the number and the rest of the stream); a
number that does not fit an `int` leaves 0 here, in the code the largest `int`.
-/

namespace Verif.Input

open Verif Verif.Tensor

/-- The entries of the five vectors for one sweep (sweeps.h:127-132). -/
@[ext] structure SwRow (R : Type*) where
  maxdim : Int
  mindim : Int
  cutoff : R
  niter : Int
  noise : R
  deriving DecidableEq

/-- The loop of `SkipLine` (input.cc:362-366): `get` is not checked, at the end of the file it never ends. -/
def skipHead : List Char → Run (List Char)
  | [] => none
  | c :: s => if c = '\n' then some (.ok (eatwhite s)) else skipHead s

/-- `>>` of an `int`, with what is left of the stream. -/
def takeInt (s : List Char) : Option (Int × List Char) :=
  match readInt s with
  | none => none
  | some n =>
    let s := eatwhite s
    let s := if s.head? = some '-' ∨ s.head? = some '+' then s.tail else s
    some (n, s.dropWhile Char.isDigit)

section
variable {R : Type*} [Zero R] (rd : List Char → Option (R × List Char))

/-- One `>>`: on a failed stream nothing is read, and a read that fails makes the stream fail; the value
is 0, which it was before. -/
def get1 {α} [Zero α] (f : List Char → Option (α × List Char)) (s : Option (List Char)) :
    α × Option (List Char) :=
  match s.bind f with
  | some (x, s') => (x, some s')
  | none => (0, none)

/-- `table.file() >> maxdim_[i] >> mindim_[i] >> cutoff_[i] >> niter_[i] >> noise_[i]` (sweeps.h:432). -/
def readRow (s : Option (List Char)) : SwRow R × Option (List Char) :=
  let a := get1 takeInt s
  let b := get1 takeInt a.2
  let c := get1 rd b.2
  let d := get1 takeInt c.2
  let e := get1 rd d.2
  (⟨a.1, b.1, c.1, d.1, e.1⟩, e.2)

/-- The five vectors, indexed by the sweep. -/
abbrev Table (R : Type*) := Nat → SwRow R

def upd (t : Table R) (i : Nat) (r : SwRow R) : Table R := fun j => if j = i then r else t j

/-- The reading loop (sweeps.h:430-442) from sweep `i` on, `k` sweeps left: the vectors and `n_last`. -/
def readLoop (nsweep : Nat) : Nat → Nat → Option (List Char) → Table R → Table R × Nat
  | 0, _, _, t => (t, nsweep)
  | k + 1, i, s, t =>
    let r := readRow rd s
    let t := upd t i r.1
    if r.1.maxdim = 0 then (t, i - 1) else readLoop nsweep k (i + 1) r.2 t

/-- The filling loop (sweeps.h:444-451), `k` sweeps left. -/
def fillTable (nlast : Nat) : Nat → Nat → Table R → Table R
  | 0, _, t => t
  | k + 1, i, t => fillTable nlast k (i + 1) (upd t i (t nlast))

/-- `tableInit` (sweeps.h:413-453). -/
def tableInit (f : File) (g : Group) (nsweep : Nat) : Run (Table R) :=
  Run.bind (gotoGroup f g) fun r =>
    if r.1 then
      Run.bind (skipHead r.2) fun s =>
        let x := readLoop rd nsweep nsweep 1 (some s) fun _ => ⟨0, 0, 0, 0, 0⟩
        some (.ok (fillTable x.2 (nsweep - x.2) (x.2 + 1) x.1))
    else some .throw

/-! ## Tables in a file -/

/-- `w` is a way to write the number `x`: it is read up to the next white space. -/
def Writes (w : List Char) (x : R) : Prop := ∀ ws c s, White ws → isSpace c = true →
  rd (ws ++ (w ++ c :: s)) = some (x, c :: s)

/-- White space that separates. -/
def Gap (l : List Char) : Prop := Blank l ∧ l ≠ []

/-- A line of the table. -/
def TableLine (r : Row) (p : SwRow R) : Prop :=
  ∃ g1 g2 g3 g4 g5 w3 w5, Gap g1 ∧ Gap g2 ∧ Gap g3 ∧ Gap g4 ∧ Blank g5 ∧
    Writes rd w3 p.cutoff ∧ Writes rd w5 p.noise ∧
    (-2147483648 ≤ p.maxdim ∧ p.maxdim ≤ 2147483647) ∧ (-2147483648 ≤ p.mindim ∧ p.mindim ≤ 2147483647) ∧
    (-2147483648 ≤ p.niter ∧ p.niter ≤ 2147483647) ∧
    r.tok ++ r.rest = decimal p.maxdim ++ (g1 ++ (decimal p.mindim ++ (g2 ++ (w3 ++ (g3 ++
      (decimal p.niter ++ (g4 ++ (w5 ++ g5))))))))

/-- The lines of a table. -/
def rowsDoc : List Row → Doc
  | [] => .nil
  | r :: rs => .line [r] (rowsDoc rs)

/-! ## Reading one line -/

omit [Zero R] in
theorem readInt_white {ws : List Char} (h : White ws) (s : List Char) : readInt (ws ++ s) = readInt s := by
  simp only [readInt, eatwhite_white h]

theorem dropWhile_stop {p : Char → Bool} {v s : List Char} (hv : ∀ c ∈ v, p c = true)
    (hs : ∀ c, s.head? = some c → p c = false) : (v ++ s).dropWhile p = s := by
  induction v with
  | nil =>
    cases s with
    | nil => rfl
    | cons c s => simp [hs c rfl]
  | cons c v ih =>
    rw [List.cons_append, List.dropWhile_cons, if_pos (hv c (by simp))]
    exact ih fun x hx => hv x (by simp [hx])

theorem takeInt_decimal {ws : List Char} (hws : White ws) (n : Int) (h1 : -2147483648 ≤ n)
    (h2 : n ≤ 2147483647) (c : Char) (s : List Char) (hc : isSpace c = true) :
    takeInt (ws ++ (decimal n ++ c :: s)) = some (n, c :: s) := by
  have hcd : c.isDigit = false := by
    by_contra h
    have := digit_not_space (c := c) (by simpa using h)
    rw [hc] at this; exact absurd this (by decide)
  have hs : ∀ x, (c :: s).head? = some x → x.isDigit = false := by
    intro x hx
    obtain rfl : c = x := by simpa using hx
    exact hcd
  rw [takeInt, readInt_white hws, readInt_decimal n h1 h2 hs, eatwhite_white hws]
  have hd : ∀ c ∈ Nat.toDigits 10 n.natAbs, c.isDigit = true := fun c hc =>
    Nat.isDigit_of_mem_toDigits (by decide) (by decide) hc
  by_cases hn : n < 0
  · have he : eatwhite (decimal n ++ c :: s) = '-' :: (Nat.toDigits 10 n.natAbs ++ c :: s) := by
      rw [decimal, if_pos hn, List.cons_append, eatwhite_cons (by decide)]
    simp only [he, List.head?_cons, List.tail_cons, if_true, true_or]
    rw [dropWhile_stop hd hs]
  · obtain ⟨x, l, hcl⟩ : ∃ c l, Nat.toDigits 10 n.natAbs = c :: l := by
      cases hx : Nat.toDigits 10 n.natAbs with
      | nil => exact absurd hx Nat.toDigits_ne_nil
      | cons c l => exact ⟨c, l, rfl⟩
    have hx : x.isDigit = true := hd x (by simp [hcl])
    have hc1 : x ≠ '-' := by rintro rfl; exact absurd hx (by decide)
    have hc2 : x ≠ '+' := by rintro rfl; exact absurd hx (by decide)
    have he : eatwhite (decimal n ++ c :: s) = Nat.toDigits 10 n.natAbs ++ c :: s := by
      rw [decimal, if_neg hn, hcl, List.cons_append, eatwhite_cons (digit_not_space hx)]
    have hh : (Nat.toDigits 10 n.natAbs ++ c :: s).head? = some x := by rw [hcl]; rfl
    have hsg : ¬(some x = some '-' ∨ some x = some '+') := by simp [hc1, hc2]
    simp only [he, hh, if_neg hsg]
    rw [dropWhile_stop hd hs]

theorem Gap.split {l : List Char} (h : Gap l) : ∃ c u, isSpace c = true ∧ White u ∧ l = c :: u := by
  obtain ⟨hb, hne⟩ := h
  cases l with
  | nil => exact absurd rfl hne
  | cons c u => exact ⟨c, u, (hb c (by simp)).1, fun x hx => (hb x (by simp [hx])).1, rfl⟩

theorem get1_int {ws : List Char} (hws : White ws) (n : Int) (h : -2147483648 ≤ n ∧ n ≤ 2147483647)
    (c : Char) (s : List Char) (hc : isSpace c = true) :
    get1 takeInt (some (ws ++ (decimal n ++ c :: s))) = (n, some (c :: s)) := by
  simp only [get1, Option.bind_some, takeInt_decimal hws n h.1 h.2 c s hc]

variable {rd}

theorem get1_rd {w : List Char} {x : R} (h : Writes rd w x) {ws : List Char} (hws : White ws)
    (c : Char) (s : List Char) (hc : isSpace c = true) :
    get1 rd (some (ws ++ (w ++ c :: s))) = (x, some (c :: s)) := by
  simp only [get1, Option.bind_some, h ws c s hws hc]

theorem White.cons {c : Char} {l : List Char} (hc : isSpace c = true) (h : White l) : White (c :: l) := by
  intro x hx
  rcases List.mem_cons.1 hx with rfl | hx
  · exact hc
  · exact h x hx

theorem get1_int' {c0 : Char} {u : List Char} (h0 : isSpace c0 = true) (hu : White u) (n : Int)
    (h : -2147483648 ≤ n ∧ n ≤ 2147483647) (c : Char) (s : List Char) (hc : isSpace c = true) :
    get1 takeInt (some (c0 :: (u ++ (decimal n ++ c :: s)))) = (n, some (c :: s)) :=
  get1_int (hu.cons h0) n h c s hc

theorem get1_rd' {w : List Char} {x : R} (h : Writes rd w x) {c0 : Char} {u : List Char}
    (h0 : isSpace c0 = true) (hu : White u) (c : Char) (s : List Char) (hc : isSpace c = true) :
    get1 rd (some (c0 :: (u ++ (w ++ c :: s)))) = (x, some (c :: s)) :=
  get1_rd h (hu.cons h0) c s hc

/-- A line of the table, and the line break, are read as the five parameters; white space is left. -/
theorem readRow_line {r : Row} {p : SwRow R} (h : TableLine rd r p) {ws : List Char} (hws : White ws)
    (s : List Char) : ∃ u, White u ∧
      readRow rd (some (ws ++ (r.tok ++ (r.rest ++ '\n' :: s)))) = (p, some (u ++ s)) := by
  obtain ⟨g1, g2, g3, g4, g5, w3, w5, h1, h2, h3, h4, h5, hw3, hw5, i1, i2, i4, he⟩ := h
  obtain ⟨c1, u1, hc1, hu1, rfl⟩ := h1.split
  obtain ⟨c2, u2, hc2, hu2, rfl⟩ := h2.split
  obtain ⟨c3, u3, hc3, hu3, rfl⟩ := h3.split
  obtain ⟨c4, u4, hc4, hu4, rfl⟩ := h4.split
  have e : r.tok ++ (r.rest ++ '\n' :: s) = (r.tok ++ r.rest) ++ '\n' :: s := by simp
  rw [e, he]
  obtain ⟨c5, u5, hc5, hu5, e5⟩ : ∃ c u, isSpace c = true ∧ White u ∧ g5 ++ '\n' :: s = c :: (u ++ s) := by
    cases g5 with
    | nil => exact ⟨'\n', [], by decide, by intro c hc; simp at hc, rfl⟩
    | cons c u =>
      refine ⟨c, u ++ ['\n'], (h5 c (by simp)).1, ?_, by simp⟩
      intro x hx
      rcases List.mem_append.1 hx with hx | hx
      · exact (h5 x (by simp [hx])).1
      · obtain rfl : x = '\n' := by simpa using hx
        decide
  refine ⟨c5 :: u5, hu5.cons hc5, ?_⟩
  simp only [List.append_assoc, List.cons_append]
  rw [e5, readRow, get1_int hws _ i1 _ _ hc1]
  dsimp only
  rw [get1_int' hc1 hu1 _ i2 _ _ hc2]
  dsimp only
  rw [get1_rd' hw3 hc2 hu2 _ _ hc3]
  dsimp only
  rw [get1_int' hc3 hu3 _ i4 _ _ hc4]
  dsimp only
  rw [get1_rd' hw5 hc4 hu4 _ _ hc5]

/-! ## The loops -/

theorem takeInt_bracket {ws : List Char} (hws : White ws) (s : List Char) :
    takeInt (ws ++ '}' :: s) = none := by
  have : readInt (ws ++ '}' :: s) = none := by
    rw [readInt_white hws]; rfl
  rw [takeInt, this]

/-- What the reading loop leaves: rows read, and the last of them. -/
theorem readLoop_rows {rs : List Row} {ps : List (SwRow R)} (h : List.Forall₂ (TableLine rd) rs ps)
    (hps : ∀ p ∈ ps, p.maxdim ≠ 0) (nsweep : Nat) :
    ∀ (k i : Nat) (bt s ws : List Char) (t : Table R), Renders (rowsDoc rs) bt → White ws → 1 ≤ i →
      i + k = nsweep + 1 →
      let x := readLoop rd nsweep k i (some (ws ++ (bt ++ '}' :: s))) t
      x.2 = min nsweep (i - 1 + ps.length) ∧
      (∀ j, j < i → x.1 j = t j) ∧
      ∀ j p, ps[j]? = some p → j < k → x.1 (i + j) = p := by
  induction h with
  | nil =>
    intro k i bt s ws t hbt hws hi1 hik
    cases k with
    | zero => refine ⟨?_, fun _ _ => rfl, by simp⟩; simp [readLoop]; omega
    | succ k =>
      cases hbt with
      | nil hb =>
        have hw : White (ws ++ bt) := by
          intro c hc
          rcases List.mem_append.1 hc with h | h
          · exact hws c h
          · exact hb c h
        have h0 : (readRow rd (some (ws ++ (bt ++ '}' :: s)))).1.maxdim = 0 := by
          rw [← List.append_assoc, readRow]
          simp only [get1, Option.bind_some, takeInt_bracket hw]
        intro x
        have hx : x = (upd t i (readRow rd (some (ws ++ (bt ++ '}' :: s)))).1, i - 1) := by
          simp only [x, readLoop, h0, if_true]
        rw [hx]
        refine ⟨by simp; omega, ?_, by simp⟩
        intro j hj
        simp [upd, Nat.ne_of_lt hj]
  | @cons r p rs ps hrp hall ih =>
    intro k i bt s ws t hbt hws hi1 hik
    cases k with
    | zero =>
      refine ⟨?_, fun _ _ => rfl, by simp⟩
      simp [readLoop]; omega
    | succ k =>
      cases hbt with
      | @line ws0 t0 rest _ _ hws0 ht hn =>
        have ht0 : t0 = r.tok ++ r.rest := by
          generalize hrs : [r] = l at ht
          cases ht with
          | one h => simp at hrs; rw [hrs]
          | cons h _ _ h2 =>
            simp at hrs
            exact absurd hrs.2.symm (by simpa using h2.ne_nil)
        subst ht0
        have hw : White (ws ++ ws0) := by
          intro c hc
          rcases List.mem_append.1 hc with h | h
          · exact hws c h
          · exact hws0 c h
        obtain ⟨u, hu, hr⟩ := readRow_line hrp hw (rest ++ '}' :: s)
        have hmd : p.maxdim ≠ 0 := hps p (by simp)
        have h2 := ih (fun q hq => hps q (by simp [hq])) k (i + 1) rest s u (upd t i p) hn hu (by omega)
          (by omega)
        intro x
        have hx : x = readLoop rd nsweep k (i + 1) (some (u ++ (rest ++ '}' :: s))) (upd t i p) := by
          have e : ws ++ (ws0 ++ (r.tok ++ r.rest ++ '\n' :: rest) ++ '}' :: s) =
              ws ++ ws0 ++ (r.tok ++ (r.rest ++ '\n' :: (rest ++ '}' :: s))) := by simp
          simp only [x]
          rw [e, readLoop, hr]
          simp only [if_neg hmd]
        rw [hx]
        refine ⟨?_, ?_, ?_⟩
        · rw [h2.1]; simp; omega
        · intro j hj
          rw [h2.2.1 j (by omega), upd, if_neg (by omega)]
        · intro j q hq hj
          cases j with
          | zero =>
            obtain rfl : p = q := by simpa using hq
            have h3 := h2.2.1 i (by omega)
            exact h3.trans (by rw [upd, if_pos rfl])
          | succ j =>
            have := h2.2.2 j q (by simpa using hq) (by omega)
            rw [show i + (j + 1) = i + 1 + j by omega, this]

theorem fillTable_eq (nlast : Nat) : ∀ (k i : Nat) (t : Table R), nlast < i →
    ∀ j, fillTable nlast k i t j = if i ≤ j ∧ j < i + k then t nlast else t j := by
  intro k
  induction k with
  | zero => intro i t _ j; rw [fillTable, if_neg (by omega)]
  | succ k ih =>
    intro i t hi j
    rw [fillTable, ih (i + 1) _ (by omega) j]
    simp only [upd, if_neg (show nlast ≠ i by omega)]
    by_cases h1 : j = i
    · subst h1; rw [if_neg (by omega), if_pos rfl, if_pos (by omega)]
    · rw [if_neg h1]
      by_cases h2 : i ≤ j ∧ j < i + (k + 1)
      · rw [if_pos h2, if_pos (by omega)]
      · rw [if_neg h2, if_neg (by omega)]

theorem skipHead_eatwhite_line {ws t : List Char} (hws : White ws) {rows : List Row} (ht : RowsText rows t)
    (s : List Char) : skipHead (eatwhite (ws ++ (t ++ '\n' :: s))) = some (.ok (eatwhite s)) := by
  rw [eatwhite_white hws]
  have h1 : ∀ l : List Char, Flat l → skipHead (l ++ '\n' :: s) = some (.ok (eatwhite s)) := by
    intro l hl
    induction l with
    | nil => simp [skipHead]
    | cons c l ih =>
      rw [List.cons_append, skipHead, if_neg (hl c (by simp)).2.2]
      exact ih fun x hx => hl x (by simp [hx])
  have h2 : eatwhite (t ++ '\n' :: s) = t ++ '\n' :: s := by
    have h3 : ∀ r : Row, r.Ok → ∀ u, eatwhite (r.tok ++ u) = r.tok ++ u := by
      intro r hr u
      rcases hr.1 with ⟨⟨-, x, cs, hx, hx0, -⟩, -⟩ | ⟨x, hx, hx1, -⟩
      · rw [hx, List.cons_append, eatwhite_cons (isTok_not_space hx0)]
      · rw [hx, List.cons_append, eatwhite_cons hx1]
    cases ht with
    | one h => rw [List.append_assoc, h3 _ h]
    | cons h _ _ _ => rw [List.append_assoc, h3 _ h]
  rw [h2]
  exact h1 t ht.flat

/-- **C84.** Sweep `i` of `nsweep` sweeps has the parameters of row `i` of the table, or those of the last row
if the table has fewer rows. -/
theorem C84_table_partial {top : Doc} {text : List Char} (h : Renders top text) {g : Group} (hg : g.Names)
    {heads : List Row} {rs : List Row} (hat : g.At top (.line heads (rowsDoc rs)))
    {ps : List (SwRow R)} (hrows : List.Forall₂ (TableLine rd) rs ps) (hne : ps ≠ [])
    (hps : ∀ p ∈ ps, p.maxdim ≠ 0) (nsweep : Nat) :
    ∃ t, tableInit rd (some text) g nsweep = some (.ok t) ∧
      ∀ i, 1 ≤ i → i ≤ nsweep → ps[min i ps.length - 1]? = some (t i) := by
  obtain ⟨bt, k, hb, hgo⟩ := gotoGroup_at h hg hat
  cases hb with
  | @line ws t0 rest _ _ hws ht hn =>
    have hlen : 0 < ps.length := List.length_pos_iff.2 hne
    have hsk : skipHead (eatwhite (ws ++ (t0 ++ '\n' :: rest) ++ '}' :: k)) =
        some (.ok (eatwhite (rest ++ '}' :: k))) := by
      have e : ws ++ (t0 ++ '\n' :: rest) ++ '}' :: k = ws ++ (t0 ++ '\n' :: (rest ++ '}' :: k)) := by simp
      rw [e, skipHead_eatwhite_line hws ht]
    -- the white space at the beginning of the first row has been eaten
    obtain ⟨bt', hbt', hee⟩ : ∃ bt', Renders (rowsDoc rs) bt' ∧
        eatwhite (rest ++ '}' :: k) = bt' ++ '}' :: k := by
      cases hrows with
      | nil => exact absurd rfl hne
      | @cons r p rs ps hrp hall =>
        cases hn with
        | @line ws1 t1 rest1 _ _ hws1 ht1 hn1 =>
          refine ⟨t1 ++ '\n' :: rest1, .line (ws := []) (by intro c hc; simp at hc) ht1 hn1, ?_⟩
          have h3 : ∀ r : Row, r.Ok → ∀ u, eatwhite (r.tok ++ u) = r.tok ++ u := by
            intro r hr u
            rcases hr.1 with ⟨⟨-, x, cs, hx, hx0, -⟩, -⟩ | ⟨x, hx, hx1, -⟩
            · rw [hx, List.cons_append, eatwhite_cons (isTok_not_space hx0)]
            · rw [hx, List.cons_append, eatwhite_cons hx1]
          rw [List.append_assoc, eatwhite_white hws1]
          cases ht1 with
          | one h => simp only [List.append_assoc]; rw [h3 _ h]
          | cons h _ _ _ => simp only [List.append_assoc]; rw [h3 _ h]
    have hrl := readLoop_rows hrows hps nsweep nsweep 1 bt' k [] (fun _ => ⟨0, 0, 0, 0, 0⟩) hbt'
      (by intro c hc; simp at hc) le_rfl (by omega)
    rw [List.nil_append] at hrl
    set x := readLoop rd nsweep nsweep 1 (some (bt' ++ '}' :: k)) (fun _ => (⟨0, 0, 0, 0, 0⟩ : SwRow R)) with hx
    have hT : tableInit rd (some text) g nsweep =
        some (.ok (fillTable x.2 (nsweep - x.2) (x.2 + 1) x.1)) := by
      rw [tableInit, hgo, Run.bind_some_ok, if_pos rfl]
      dsimp only
      rw [hsk, Run.bind_some_ok, hee]
    refine ⟨_, hT, ?_⟩
    · intro i hi1 hi2
      have hrl1 : x.2 = min nsweep ps.length := by simpa using hrl.1
      have hrl : x.2 = min nsweep (1 - 1 + ps.length) ∧ (∀ j, j < 1 → x.1 j = ⟨0, 0, 0, 0, 0⟩) ∧
        ∀ j p, ps[j]? = some p → j < nsweep → x.1 (1 + j) = p := hrl
      rw [fillTable_eq _ _ _ _ (by omega)]
      have key : ∀ j, j < ps.length → j < nsweep → ps[j]? = some (x.1 (j + 1)) := by
        intro j hj hjn
        rw [List.getElem?_eq_getElem hj, ← hrl.2.2 j ps[j] (List.getElem?_eq_getElem hj) hjn, Nat.add_comm]
      by_cases hil : i ≤ ps.length
      · rw [if_neg (by rw [hrl1]; omega), Nat.min_eq_left hil, key (i - 1) (by omega) (by omega)]
        rw [Nat.sub_add_cancel hi1]
      · rw [if_pos (by rw [hrl1]; omega), Nat.min_eq_right (by omega), key (ps.length - 1) (by omega) (by omega)]
        have hm : x.2 = ps.length - 1 + 1 := by rw [hrl1]; omega
        rw [hm]

end

/-! ## Where the claim fails, and a table -/

/-- A reader of whole numbers, in place of that of `Real`. -/
abbrev rdInt : List Char → Option (Int × List Char) := takeInt

/-- The parameters of the sweeps up to the fourth. -/
def view4 (x : Run (Table Int)) : Option (List (SwRow Int)) :=
  match x with
  | some (.ok t) => some ((List.range 4).map fun i => t (i + 1))
  | _ => none

/-- **C84 is false for a table in which a column is missing** (here `noise`): the first number of the next
row is taken for it and no error is raised. -/
theorem C84_column_counterexample :
    view4 (tableInit rdInt (some (txt "sweeps\n{\nmaxdim mindim cutoff niter\n50 10 0 2\n100 20 0 3\n}\n"))
      (.root (txt "sweeps")) 2) =
      some [⟨50, 10, 0, 2, 100⟩, ⟨20, 0, 3, 0, 0⟩, ⟨0, 0, 0, 0, 0⟩, ⟨0, 0, 0, 0, 0⟩] := by
  decide +kernel

/-- **C84 is false for a table without rows**: every sweep has bond dimension zero and no error is raised. -/
theorem C84_empty_counterexample :
    view4 (tableInit rdInt (some (txt "sweeps\n{\nmaxdim mindim cutoff niter noise\n}\n"))
      (.root (txt "sweeps")) 4) =
      some (List.replicate 4 ⟨0, 0, 0, 0, 0⟩) := by
  decide +kernel

/-- The last row is repeated. -/
example : view4 (tableInit rdInt (some (txt "sweeps\n{\nmaxdim mindim cutoff niter noise\n50 10 0 2 7\n  100 20  1 3 0\n}\n"))
      (.root (txt "sweeps")) 4) =
      some [⟨50, 10, 0, 2, 7⟩, ⟨100, 20, 1, 3, 0⟩, ⟨100, 20, 1, 3, 0⟩, ⟨100, 20, 1, 3, 0⟩] := by
  decide +kernel

theorem writes_int (n : Int) (h1 : -2147483648 ≤ n) (h2 : n ≤ 2147483647) : Writes rdInt (decimal n) n :=
  fun _ c s hws hc => takeInt_decimal hws n h1 h2 c s hc

theorem gap_sp : Gap (txt " ") := ⟨blank_sp, by decide⟩

/-- The hypotheses of `C84_table_partial` for a table of one row. -/
example (nsweep : Nat) : ∃ t, tableInit rdInt
      (some (txt "sweeps\n{\nmaxdim mindim cutoff niter noise\n50 10 0 2 7\n}\n")) (.root (txt "sweeps")) nsweep =
        some (.ok t) ∧ ∀ i, 1 ≤ i → i ≤ nsweep → t i = ⟨50, 10, 0, 2, 7⟩ := by
  have hr : ∀ l : List Char, l.all (fun c => c != '\n' && c != ',' && c != ';' && c != '{' && c != '}') = true →
      ∀ c ∈ l, c ≠ '\n' ∧ c ≠ ',' ∧ c ≠ ';' ∧ c ≠ '{' ∧ c ≠ '}' := by
    intro l h c hc
    have := List.all_eq_true.1 h c hc
    simpa [and_assoc] using this
  have hw : ∀ l : List Char, l.all isSpace = true → White l := fun l h c hc => List.all_eq_true.1 h c hc
  have l1 : RowsText [⟨txt "maxdim", txt " mindim cutoff niter noise"⟩] (txt "maxdim mindim cutoff niter noise") :=
    .one (r := ⟨txt "maxdim", txt " mindim cutoff niter noise"⟩)
      ⟨.inl ⟨ident_of (by decide), by decide⟩, hr _ (by decide)⟩
  have l2 : RowsText [⟨txt "5", txt "0 10 0 2 7"⟩] (txt "50 10 0 2 7") :=
    .one (r := ⟨txt "5", txt "0 10 0 2 7"⟩)
      ⟨.inr ⟨'5', rfl, by decide, by decide, by decide, by decide, by decide⟩, hr _ (by decide)⟩
  have b2 := Renders.group (ws := []) (name := txt "sweeps") (ws' := txt "\n") (tl := [])
    (hw _ (by decide)) (ident_of (by decide)) (hw _ (by decide))
    (Renders.line (ws := txt "\n") (hw _ (by decide)) l1
      (Renders.line (ws := []) (hw _ (by decide)) l2 (.nil (ws := []) (hw _ (by decide)))))
    (hr _ (by decide)) (.nil (ws := []) (hw _ (by decide)))
  have hR : Renders (.group (txt "sweeps") (.line [⟨txt "maxdim", txt " mindim cutoff niter noise"⟩]
      (rowsDoc [⟨txt "5", txt "0 10 0 2 7"⟩])) .nil)
      (txt "sweeps\n{\nmaxdim mindim cutoff niter noise\n50 10 0 2 7\n}\n") := by
    refine cast (congrArg (Renders _) ?_) b2
    decide +kernel
  obtain ⟨t, h1, h2⟩ := C84_table_partial (rd := rdInt) hR (g := .root (txt "sweeps")) (ident_of (by decide))
    (by rfl : Group.At _ _ (.line [⟨txt "maxdim", txt " mindim cutoff niter noise"⟩]
      (rowsDoc [⟨txt "5", txt "0 10 0 2 7"⟩])))
    (ps := [⟨50, 10, 0, 2, 7⟩])
    (.cons ⟨txt " ", txt " ", txt " ", txt " ", [], decimal 0, decimal 7, gap_sp, gap_sp, gap_sp, gap_sp,
      (by intro c hc; simp at hc), writes_int 0 (by decide) (by decide), writes_int 7 (by decide) (by decide),
      by decide, by decide, by decide, by decide⟩ .nil)
    (by simp) (by simp) nsweep
  refine ⟨t, h1, fun i hi hn => ?_⟩
  have := h2 i hi hn
  have e : min i [(⟨50, 10, 0, 2, 7⟩ : SwRow Int)].length - 1 = 0 := by simp
  rw [e] at this
  simpa using this.symm

end Verif.Input
