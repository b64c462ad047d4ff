import Verif.Decomp.QrQN
import Mathlib.Data.List.Sort
import Mathlib.Data.List.Perm.Basic
import Mathlib.Data.List.Nodup
import Mathlib.Algebra.BigOperators.Group.Finset.Basic
import Mathlib.Tactic.Ring
import Mathlib.Tactic.Abel

/-!
# The loops of the QR decomposition with quantum numbers
-/

namespace Verif.QrQN

open Verif.SvdRef (rrows)

variable {G K : Type*}

/-! ### Lists -/

theorem filter_at {α : Type*} (q : α → Bool) : ∀ (l : List α) {t : ℕ} {a : α}, l[t]? = some a → q a = true →
    (l.filter q)[(l.take t).countP q]? = some a
  | [], t, a, h, _ => by simp at h
  | x :: l, 0, a, h, hq => by
    simp only [List.getElem?_cons_zero, Option.some.injEq] at h
    subst h
    simp [List.filter_cons, hq]
  | x :: l, t + 1, a, h, hq => by
    simp only [List.getElem?_cons_succ] at h
    have ih := filter_at q l h hq
    rw [List.take_succ_cons, List.countP_cons, List.filter_cons]
    by_cases hx : q x = true
    · simp only [hx, if_true, List.getElem?_cons_succ]
      exact ih
    · simp only [hx, if_false, Nat.add_zero]
      exact ih

theorem count_take_lt {α : Type*} (q : α → Bool) (l : List α) {t : ℕ} {a : α} (h : l[t]? = some a)
    (hq : q a = true) : (l.take t).countP q < (l.filter q).length :=
  (List.getElem?_eq_some_iff.mp (filter_at q l h hq)).1

/-- In a list sorted by a key, the place of an element is the number of elements with a smaller key. -/
theorem place {α : Type*} (f : α → ℕ) {l : List α} (h : l.Pairwise fun a b => f a < f b) {t : ℕ} {a : α}
    (ha : l[t]? = some a) : (l.countP fun x => decide (f x < f a)) = t := by
  induction l generalizing t with
  | nil => simp at ha
  | cons x l ih =>
    rw [List.pairwise_cons] at h
    cases t with
    | zero =>
      simp only [List.getElem?_cons_zero, Option.some.injEq] at ha
      subst ha
      rw [List.countP_cons]
      simp only [lt_irrefl, decide_false, Bool.false_eq_true, if_false, Nat.add_zero]
      rw [List.countP_eq_zero]
      intro b hb
      have := h.1 b hb
      simp; omega
    | succ t =>
      simp only [List.getElem?_cons_succ] at ha
      rw [List.countP_cons, ih h.2 ha]
      have := h.1 a (List.mem_of_getElem? ha)
      simp [this]

/-! ### The order of the blocks -/

section
variable [Zero G]

/-- The place of block `b` when the blocks are ordered by column sector. -/
def rank (bs : List (Blk K)) (b : ℕ) : ℕ :=
  match bs[b]? with
  | none => b
  | some B => bs.countP fun B' => decide (B'.i2 < B.i2)

theorem rank_lt {bs : List (Blk K)} {b : ℕ} (h : b < bs.length) : rank bs b < bs.length := by
  unfold rank
  rw [List.getElem?_eq_getElem h]
  simp only
  apply lt_of_le_of_ne List.countP_le_length
  intro he
  rw [List.countP_eq_length] at he
  simpa using he bs[b] (List.getElem_mem h)

theorem entries_get (qI rI : Ind G) (ps : List (Blk K × Fac K)) {b : ℕ} {p} (h : ps[b]? = some p) :
    (ps.zipIdx.map (entry qI rI))[b]? = some (entry qI rI (p, b)) := by
  rw [List.getElem?_map, List.getElem?_zipIdx, h]
  simp

theorem srt_sorted (qI rI : Ind G) {ps : List (Blk K × Fac K)} (h2 : (ps.map fun p => p.1.i2).Nodup) :
    (indLiq qI rI ps).Pairwise fun a b => a.1 < b.1 := by
  have hp : (indLiq qI rI ps).Perm (ps.zipIdx.map (entry qI rI)) := List.mergeSort_perm _ _
  have hn : ((indLiq qI rI ps).map fun t => t.1).Nodup := by
    rw [(hp.map _).nodup_iff, List.map_map]
    have e : ((fun t : ℕ × (G × ℕ) × ℕ => t.1) ∘ entry qI rI) =
        (fun p : Blk K × Fac K => p.1.i2) ∘ Prod.fst := by
      funext x; rfl
    rw [e, ← List.map_map, List.zipIdx_map_fst]
    exact h2
  have hs : (indLiq qI rI ps).Pairwise fun a b => le a b = true := by
    apply List.pairwise_mergeSort
    · intro a b c h1 h2
      simp only [le, Bool.or_eq_true, decide_eq_true_eq, Bool.and_eq_true, beq_iff_eq] at *
      omega
    · intro a b
      simp only [le, Bool.or_eq_true, decide_eq_true_eq, Bool.and_eq_true, beq_iff_eq]
      omega
  rw [List.Nodup, List.pairwise_map] at hn
  refine (hs.and hn).imp ?_
  rintro a b ⟨h, h'⟩
  simp only [le, Bool.or_eq_true, decide_eq_true_eq, Bool.and_eq_true, beq_iff_eq] at h
  omega

theorem srt_at (qI rI : Ind G) {ps : List (Blk K × Fac K)} (h2 : (ps.map fun p => p.1.i2).Nodup) {b : ℕ} {p}
    (h : ps[b]? = some p) :
    (indLiq qI rI ps)[rank (ps.map (·.1)) b]? = some (entry qI rI (p, b)) := by
  have hp : (indLiq qI rI ps).Perm (ps.zipIdx.map (entry qI rI)) := List.mergeSort_perm _ _
  have hm : entry qI rI (p, b) ∈ indLiq qI rI ps :=
    hp.mem_iff.mpr (List.mem_of_getElem? (entries_get qI rI ps h))
  obtain ⟨t, ht⟩ := List.mem_iff_getElem?.mp hm
  have e := place (fun t : ℕ × (G × ℕ) × ℕ => t.1) (srt_sorted qI rI h2) ht
  have e2 : rank (ps.map (·.1)) b = t := by
    rw [← e, hp.countP_eq, List.countP_map]
    unfold rank
    rw [List.getElem?_map, h]
    simp only [Option.map_some, List.countP_map]
    have e3 : ((fun x : ℕ × (G × ℕ) × ℕ => decide (x.1 < (entry qI rI (p, b)).1)) ∘ entry qI rI) =
        ((fun B' : Blk K => decide (B'.i2 < p.1.i2)) ∘ Prod.fst) ∘ (Prod.fst : (Blk K × Fac K) × ℕ → _) := by
      funext x; rfl
    rw [e3, ← List.countP_map (f := (Prod.fst : (Blk K × Fac K) × ℕ → _)), List.zipIdx_map_fst]
  rw [e2, ht]

theorem srt_num (qI rI : Ind G) {ps : List (Blk K × Fac K)} (h2 : (ps.map fun p => p.1.i2).Nodup)
    (hr : ∀ b, b < ps.length → rank (ps.map (·.1)) (rank (ps.map (·.1)) b) = b) {b : ℕ} (hb : b < ps.length) :
    ((indLiq qI rI ps).getD b (0, (0, 0), 0)).2.2 = rank (ps.map (·.1)) b := by
  have h1 : rank (ps.map (·.1)) b < ps.length := by
    have := rank_lt (bs := ps.map (·.1)) (b := b) (by simpa using hb)
    simpa using this
  have := srt_at qI rI h2 (List.getElem?_eq_getElem h1)
  rw [hr b hb] at this
  rw [List.getD_eq_getElem?_getD, this]
  rfl

end

/-! ### The columns of the new index -/

/-- A group of columns of `Q`: the row sector they belong to, the first one and how many. -/
structure Col where
  own : ℕ
  base : ℕ
  w : ℕ

section
variable [Zero G]

/-- A block with more rows than columns. -/
def tall (qI rI : Ind G) (p : Blk K × Fac K) : Bool := rI.size p.1.i2 < qI.size p.1.i1

/-- The first groups. -/
def mainCols (ut : Bool) (qI rI : Ind G) (ps : List (Blk K × Fac K)) : List Col :=
  if ut then (indLiq qI rI ps).map fun t => ⟨((ps.map fun p => p.1.i1).getD t.2.2 0), 0, t.2.1.2⟩
  else ps.map fun p => ⟨p.1.i1, 0, p.2.k⟩

/-- The filler columns. -/
def fillCols (ut complete : Bool) (qI rI : Ind G) (ps : List (Blk K × Fac K)) : List Col :=
  if ut && complete then (ps.filter (tall qI rI)).map fun p =>
    ⟨p.1.i1, min p.2.k (rI.size p.1.i2), qI.size p.1.i1 - rI.size p.1.i2⟩
  else []

/-- The columns of the sectors without a block. -/
def zeroCols (complete : Bool) (qI : Ind G) (ps : List (Blk K × Fac K)) : List Col :=
  if complete then (zerob qI (ps.map (·.1))).map fun b => ⟨b, 0, qI.size b⟩ else []

/-- All groups. -/
def cols (ut complete : Bool) (qI rI : Ind G) (ps : List (Blk K × Fac K)) : List Col :=
  mainCols ut qI rI ps ++ fillCols ut complete qI rI ps ++ zeroCols complete qI ps

theorem entry_mem {qI rI : Ind G} {ps : List (Blk K × Fac K)} {t} (h : t ∈ indLiq qI rI ps) :
    ∃ b p, ps[b]? = some p ∧ t = entry qI rI (p, b) := by
  have hp : (indLiq qI rI ps).Perm (ps.zipIdx.map (entry qI rI)) := List.mergeSort_perm _ _
  rw [hp.mem_iff, List.mem_map] at h
  obtain ⟨⟨p, b⟩, hm, rfl⟩ := h
  exact ⟨b, p, List.mk_mem_zipIdx_iff_getElem?.mp hm, rfl⟩

theorem liq_cols (ut complete : Bool) (qI rI : Ind G) (ps : List (Blk K × Fac K)) :
    liq ut complete qI rI ps = (cols ut complete qI rI ps).map fun c => (qI.qn c.own, c.w) := by
  have h1 : (indLiq qI rI ps).map (fun t => t.2.1) =
      ((indLiq qI rI ps).map fun t => (⟨((ps.map fun p => p.1.i1).getD t.2.2 0), 0, t.2.1.2⟩ : Col)).map
        fun c => (qI.qn c.own, c.w) := by
    rw [List.map_map]
    apply List.map_congr_left
    intro t ht
    obtain ⟨b, p, hb, rfl⟩ := entry_mem ht
    have : (ps.map fun p => p.1.i1).getD b 0 = p.1.i1 := by
      rw [List.getD_eq_getElem?_getD, List.getElem?_map, hb]; rfl
    simp only [entry, Function.comp, this]
  unfold liq cols mainCols fillCols zeroCols
  cases ut <;> cases complete <;>
    simp only [Bool.false_eq_true, if_true, if_false, Bool.and_true, Bool.and_false,
      List.map_append, List.map_map, List.append_nil, h1] <;> rfl

theorem mainCols_length (ut : Bool) (qI rI : Ind G) (ps : List (Blk K × Fac K)) :
    (mainCols ut qI rI ps).length = ps.length := by
  unfold mainCols
  split
  · rw [List.length_map]
    have hp : (indLiq qI rI ps).Perm (ps.zipIdx.map (entry qI rI)) := List.mergeSort_perm _ _
    rw [hp.length_eq]
    simp
  · simp

end

/-! ### The loops -/

/-- A matrix of `w` columns with `nr` rows at the start of the memory of a block, zeros behind. -/
def filled [Zero K] (nr w : ℕ) (f : ℕ → ℕ → K) (t : ℕ) : K := if t < nr * w then f (t % nr) (t / nr) else 0

section
variable [AddCommGroup G] [DecidableEq G]

theorem setQ_ok [Zero K] {qI L : Ind G} {s : Store K} {i n nr nc : ℕ} {f : ℕ → ℕ → K}
    (hex : exQ qI L i n = true) (hsz : nr * nc ≤ qI.size i * L.size n) (h0 : ∀ t, s i n t = 0) :
    setQ qI L s i n nr nc f =
      .ok fun i' n' => if i' = i ∧ n' = n then filled nr nc f else s i' n' := by
  unfold setQ putIn put
  rw [if_pos hex, if_pos hsz]
  simp only [Res.map, Res.ok.injEq]
  funext i' n'
  split
  · funext t
    simp only [filled, h0]
  · rfl

theorem setR_ok [Zero K] {L rI : Ind G} {div : G} {s : Store K} {i n nr nc : ℕ} {f : ℕ → ℕ → K}
    (hex : exR L rI div n i = true) (hsz : nr * nc ≤ L.size n * rI.size i) (h0 : ∀ t, s n i t = 0) :
    setR L rI div s n i nr nc f =
      .ok fun n' i' => if n' = n ∧ i' = i then filled nr nc f else s n' i' := by
  unfold setR putIn put
  rw [if_pos hex, if_pos hsz]
  simp only [Res.map, Res.ok.injEq]
  funext i' n'
  split
  · funext t
    simp only [filled, h0]
  · rfl

/-- Columns of `Q` that do not belong to `R`. -/
def fillOf (ut complete : Bool) (qI rI : Ind G) (p : Blk K × Fac K) : ℕ :=
  if ut = true ∧ complete = true then qI.size p.1.i1 - min p.2.k (rI.size p.1.i2) else 0

/-- Where the columns of block `b` go. -/
def num (ut : Bool) (srt : List (ℕ × (G × ℕ) × ℕ)) (b : ℕ) : ℕ :=
  if ut then (srt.getD b (0, (0, 0), 0)).2.2 else b

/-- What one step writes into the row sector of its block. -/
def rowQ [Zero K] (ut complete : Bool) (qI rI : Ind G) (n nf : ℕ) (p : Blk K × Fac K) (n' : ℕ) : ℕ → K :=
  if 0 < fillOf ut complete qI rI p ∧ n' = nf then
    filled (qI.size p.1.i1) (fillOf ut complete qI rI p) fun x c => p.2.Q x (min p.2.k (rI.size p.1.i2) + c)
  else if n' = n then filled (qI.size p.1.i1) (min p.2.k (rI.size p.1.i2)) p.2.Q
  else fun _ => 0

/-- What one step writes into the column sector of its block. -/
def colR [Zero K] (rI : Ind G) (n : ℕ) (p : Blk K × Fac K) (n' : ℕ) : ℕ → K :=
  if n' = n then filled (min p.2.k (rI.size p.1.i2)) (rI.size p.1.i2) p.2.R else fun _ => 0

/-- The blocks that one step writes to are there. -/
structure StepOK (ut complete : Bool) (qI rI L : Ind G) (div : G) (n nf : ℕ) (p : Blk K × Fac K) : Prop where
  exq : exQ qI L p.1.i1 n = true
  szq : min p.2.k (rI.size p.1.i2) = L.size n
  ne : 0 < fillOf ut complete qI rI p → nf ≠ n
  exf : 0 < fillOf ut complete qI rI p → exQ qI L p.1.i1 nf = true
  szf : 0 < fillOf ut complete qI rI p → fillOf ut complete qI rI p = L.size nf
  exr : exR L rI div n p.1.i2 = true

theorem step_ok [Zero K] {ut complete : Bool} {qI rI L : Ind G} {div : G} {srt : List (ℕ × (G × ℕ) × ℕ)} {N b : ℕ}
    {p : Blk K × Fac K} {s : Store K × Store K × ℕ}
    (h : StepOK ut complete qI rI L div (num ut srt b) (s.2.2 + N) p)
    (hq : ∀ n t, s.1 p.1.i1 n t = 0) (hr : ∀ n t, s.2.1 n p.1.i2 t = 0) :
    step ut complete qI rI L div srt N b p.1 p.2 s = .ok
      (fun i n => if i = p.1.i1 then rowQ ut complete qI rI (num ut srt b) (s.2.2 + N) p n else s.1 i n,
       fun n i => if i = p.1.i2 then colR rI (num ut srt b) p n else s.2.1 n i,
       if 0 < fillOf ut complete qI rI p then s.2.2 + 1 else s.2.2) := by
  unfold step
  have hn : (if ut = true then (srt.getD b (0, (0, 0), 0)).2.2 else b) = num ut srt b := rfl
  simp only [hn]
  rw [setQ_ok h.exq (by rw [h.szq]) (hq _)]
  simp only [Res.bind]
  have hR := setR_ok (s := s.2.1) (f := p.2.R) (nr := min p.2.k (rI.size p.1.i2)) (nc := rI.size p.1.i2)
    h.exr (by rw [h.szq]) (hr _)
  have hRe : (fun n' i' => if n' = num ut srt b ∧ i' = p.1.i2 then
      filled (min p.2.k (rI.size p.1.i2)) (rI.size p.1.i2) p.2.R else s.2.1 n' i') =
      fun n i => if i = p.1.i2 then colR rI (num ut srt b) p n else s.2.1 n i := by
    funext n i t
    unfold colR
    by_cases h1 : i = p.1.i2
    · subst h1
      by_cases h2 : n = num ut srt b
      · simp [h2]
      · simp [h2, hr]
    · simp [h1]
  by_cases hf : 0 < fillOf ut complete qI rI p
  · have hf' : ut = true ∧ complete = true ∧ qI.size p.1.i1 - min p.2.k (rI.size p.1.i2) > 0 := by
      unfold fillOf at hf
      split at hf
      · rename_i h; exact ⟨h.1, h.2, hf⟩
      · omega
    have hfe : fillOf ut complete qI rI p = qI.size p.1.i1 - min p.2.k (rI.size p.1.i2) := by
      unfold fillOf; rw [if_pos ⟨hf'.1, hf'.2.1⟩]
    rw [if_pos hf', setQ_ok (h.exf hf) (by rw [← hfe, h.szf hf])]
    · simp only [Res.map]
      rw [hR]
      simp only [hRe, if_pos hf, Res.ok.injEq, Prod.mk.injEq, and_true]
      funext i n t
      by_cases h1 : i = p.1.i1
      · subst h1
        unfold rowQ
        simp only [true_and, if_true, hf, ← hfe]
        split
        · rfl
        · split
          · rfl
          · exact hq _ _
      · simp [h1]
    · intro t
      rw [if_neg (by rintro ⟨-, h2⟩; exact h.ne hf h2)]
      exact hq _ _
  · have hf' : ¬ (ut = true ∧ complete = true ∧ qI.size p.1.i1 - min p.2.k (rI.size p.1.i2) > 0) := by
      intro h'
      unfold fillOf at hf
      rw [if_pos ⟨h'.1, h'.2.1⟩] at hf
      exact hf h'.2.2
    rw [if_neg hf']
    simp only
    rw [hR]
    simp only [Res.map, hRe, if_neg hf, Res.ok.injEq, Prod.mk.injEq, and_true]
    funext i n t
    by_cases h1 : i = p.1.i1
    · subst h1
      unfold rowQ
      simp only [true_and, if_true, hf, false_and, if_false]
      split
      · rfl
      · exact hq _ _
    · simp [h1]

/-- How many blocks have filler columns. -/
def fills (ut complete : Bool) (qI rI : Ind G) (ps : List (Blk K × Fac K)) : ℕ :=
  ps.countP fun p => decide (0 < fillOf ut complete qI rI p)

theorem loop_ok [Zero K] {ut complete : Bool} {qI rI L : Ind G} {div : G} {srt : List (ℕ × (G × ℕ) × ℕ)} {N : ℕ} :
    ∀ (ps : List (Blk K × Fac K)) (b : ℕ) (s : Store K × Store K × ℕ),
      (ps.map fun p => p.1.i1).Nodup → (ps.map fun p => p.1.i2).Nodup →
      (∀ p ∈ ps, ∀ n t, s.1 p.1.i1 n t = 0) → (∀ p ∈ ps, ∀ n t, s.2.1 n p.1.i2 t = 0) →
      (∀ t p, ps[t]? = some p → StepOK ut complete qI rI L div (num ut srt (b + t))
        (s.2.2 + fills ut complete qI rI (ps.take t) + N) p) →
      ∃ Q R, loop ut complete qI rI L div srt N ps b s = .ok (Q, R, s.2.2 + fills ut complete qI rI ps) ∧
        (∀ i, (∀ p ∈ ps, p.1.i1 ≠ i) → Q i = s.1 i) ∧
        (∀ i, (∀ p ∈ ps, p.1.i2 ≠ i) → ∀ n, R n i = s.2.1 n i) ∧
        (∀ t p, ps[t]? = some p →
          (∀ n, Q p.1.i1 n = rowQ ut complete qI rI (num ut srt (b + t))
            (s.2.2 + fills ut complete qI rI (ps.take t) + N) p n) ∧
          ∀ n, R n p.1.i2 = colR rI (num ut srt (b + t)) p n)
  | [], b, s, _, _, _, _, _ => ⟨s.1, s.2.1, rfl, fun _ _ => rfl, fun _ _ _ => rfl, by simp⟩
  | p :: ps, b, s, h1, h2, hq, hr, hs => by
    rw [List.map_cons, List.nodup_cons] at h1 h2
    have hs0 := hs 0 p rfl
    simp only [Nat.add_zero, List.take_zero, fills, List.countP_nil] at hs0
    have hst := step_ok (s := s) hs0 (hq p List.mem_cons_self) (hr p List.mem_cons_self)
    have hn1 : ∀ p' ∈ ps, p'.1.i1 ≠ p.1.i1 := fun p' hp' e => h1.1 (List.mem_map.mpr ⟨p', hp', e⟩)
    have hn2 : ∀ p' ∈ ps, p'.1.i2 ≠ p.1.i2 := fun p' hp' e => h2.1 (List.mem_map.mpr ⟨p', hp', e⟩)
    have hfc : ∀ l : List (Blk K × Fac K), fills ut complete qI rI (p :: l) =
        fills ut complete qI rI l + if 0 < fillOf ut complete qI rI p then 1 else 0 := by
      intro l
      unfold fills
      rw [List.countP_cons]
      simp
    obtain ⟨Q, R, e, hQ, hR, ht⟩ := loop_ok (ut := ut) (complete := complete) (qI := qI) (rI := rI) (L := L)
      (div := div) (srt := srt) (N := N) ps (b + 1) (s := (fun i n => if i = p.1.i1 then rowQ ut complete qI rI (num ut srt b) (s.2.2 + N) p n else s.1 i n,
       fun n i => if i = p.1.i2 then colR rI (num ut srt b) p n else s.2.1 n i,
       if 0 < fillOf ut complete qI rI p then s.2.2 + 1 else s.2.2)) h1.2 h2.2
      (by
        intro p' hp' n t
        simp only [if_neg (hn1 p' hp')]
        exact hq p' (List.mem_cons_of_mem _ hp') n t)
      (by
        intro p' hp' n t
        simp only [if_neg (hn2 p' hp')]
        exact hr p' (List.mem_cons_of_mem _ hp') n t)
      (by
        intro t p' hp'
        have := hs (t + 1) p' (by simpa using hp')
        rw [List.take_succ_cons, hfc] at this
        have e1 : b + 1 + t = b + (t + 1) := by omega
        rw [e1]
        convert this using 1
        dsimp only
        split <;> omega)
    refine ⟨Q, R, ?_, ?_, ?_, ?_⟩
    · unfold loop
      rw [hst]
      simp only [Res.bind]
      rw [e, hfc]
      congr 3
      simp only
      split <;> omega
    · intro i hi
      rw [hQ i fun p' hp' => hi p' (List.mem_cons_of_mem _ hp')]
      funext n
      simp only
      rw [if_neg (fun e => hi p List.mem_cons_self e.symm)]
    · intro i hi n
      rw [hR i fun p' hp' => hi p' (List.mem_cons_of_mem _ hp')]
      simp only
      rw [if_neg (fun e => hi p List.mem_cons_self e.symm)]
    · intro t p' hp'
      cases t with
      | zero =>
        simp only [List.getElem?_cons_zero, Option.some.injEq] at hp'
        subst hp'
        refine ⟨fun n => ?_, fun n => ?_⟩
        · rw [hQ _ hn1]
          simp [fills]
        · rw [hR _ hn2]
          simp
      | succ t =>
        simp only [List.getElem?_cons_succ] at hp'
        obtain ⟨ha, hb⟩ := ht t p' hp'
        have e1 : b + 1 + t = b + (t + 1) := by omega
        rw [e1] at ha hb
        refine ⟨fun n => ?_, hb⟩
        rw [ha n, List.take_succ_cons, hfc]
        congr 1
        simp only
        split <;> omega

theorem zeros_ok [Zero K] [One K] {qI L : Ind G} {N : ℕ} :
    ∀ (is : List ℕ) (s : Store K × ℕ), is.Nodup → (∀ i ∈ is, ∀ n t, s.1 i n t = 0) →
      (∀ j i, is[j]? = some i → exQ qI L i (s.2 + j + N) = true ∧ qI.size i = L.size (s.2 + j + N)) →
      ∃ Q, zeros qI L N is s = .ok (Q, s.2 + is.length) ∧ (∀ i, i ∉ is → Q i = s.1 i) ∧
        ∀ j i, is[j]? = some i → ∀ n, Q i n = if n = s.2 + j + N then
          filled (qI.size i) (qI.size i) (fun x c => if x = c then 1 else 0) else fun _ => 0
  | [], s, _, _, _ => ⟨s.1, rfl, fun _ _ => rfl, by simp⟩
  | i :: is, s, hn, h0, hs => by
    rw [List.nodup_cons] at hn
    obtain ⟨a, b⟩ := hs 0 i rfl
    simp only [Nat.add_zero] at a b
    have hset := setQ_ok (s := s.1) (f := fun x c => if x = c then (1 : K) else 0) a (by rw [← b])
      (h0 i List.mem_cons_self _)
    obtain ⟨Q, e, hQ, hz⟩ := zeros_ok (qI := qI) (L := L) (N := N) is
      (fun i' n' => if i' = i ∧ n' = s.2 + N then
        filled (qI.size i) (qI.size i) (fun x c => if x = c then (1 : K) else 0) else s.1 i' n', s.2 + 1) hn.2
      (by
        intro i' hi' n t
        have hne : i' ≠ i := fun h => hn.1 (h ▸ hi')
        simp only [hne, false_and, if_false]
        exact h0 i' (List.mem_cons_of_mem _ hi') n t)
      (by
        intro j i' h
        have := hs (j + 1) i' (by simpa using h)
        simp only
        have e1 : s.2 + 1 + j = s.2 + (j + 1) := by omega
        rw [e1]
        exact this)
    refine ⟨Q, ?_, ?_, ?_⟩
    · unfold zeros
      rw [hset]
      simp only [Res.bind]
      rw [e]
      simp only [List.length_cons]
      congr 2
      omega
    · intro i' hi'
      rw [List.mem_cons, not_or] at hi'
      rw [hQ i' hi'.2]
      funext n
      simp [hi'.1]
    · intro j i' h n
      cases j with
      | zero =>
        simp only [List.getElem?_cons_zero, Option.some.injEq] at h
        subst h
        rw [hQ i hn.1]
        simp only [true_and, Nat.add_zero]
        split
        · rfl
        · funext t
          exact h0 i List.mem_cons_self n t
      | succ j =>
        simp only [List.getElem?_cons_succ] at h
        rw [hz j i' h n]
        simp only
        have e1 : s.2 + 1 + j = s.2 + (j + 1) := by omega
        rw [e1]

end

end Verif.QrQN
