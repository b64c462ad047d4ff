import Mathlib.Algebra.Ring.Int.Defs
import Mathlib.Algebra.BigOperators.Ring.List
import Mathlib.Tactic.Ring
import Verif.AutoMPO.Exact

/-!
# The exact conversion gives the sum of the terms (C50)
-/

namespace Verif.AutoMPO

variable {K : Type*} [CommRing K]

/-- The product of `f 1, …, f n`. -/
def prodTo (f : Nat → K) (n : Nat) : K := ((List.range n).map fun m => f (m + 1)).prod

theorem prodTo_succ (f : Nat → K) (n : Nat) : prodTo f (n + 1) = prodTo f n * f (n + 1) := by
  simp [prodTo, List.range_succ]

theorem prodTo_congr {f g : Nat → K} {n : Nat} (h : ∀ m, 1 ≤ m → m ≤ n → f m = g m) : prodTo f n = prodTo g n := by
  refine congrArg List.prod (List.map_congr_left fun m hm => ?_)
  rw [List.mem_range] at hm
  exact h _ (by omega) (by omega)

/-- The operator of a term on site `m`: for one operator, this operator on its site, and for two operators the starting
operator on the first site, the ending operator on the second, and `F` between them if they are fermionic. -/
def termSite (el : Name → Nat → K) (ops : List SiteTerm) (m : Nat) : K :=
  match ops with
  | [a] => if a.i = (m : Int) then el a.op m else el nId m
  | [a, b] =>
    if a.i = (m : Int) then el (startTerm a.op) m
    else if b.i = (m : Int) then el (endTerm b.op) m
    else if fermiName a.op ∧ a.i < (m : Int) ∧ (m : Int) < b.i then el nF m
    else el nId m
  | _ => el nId m

/-- A term of one operator, or of two operators on different sites in order. -/
def Good (N : Nat) (ops : List SiteTerm) : Prop :=
  (∃ a, ops = [a] ∧ 1 ≤ a.i ∧ a.i ≤ N) ∨ ∃ a b, ops = [a, b] ∧ 1 ≤ a.i ∧ a.i < b.i ∧ b.i ≤ N

/-- The product along a string which starts with `x`. -/
def stringSite (el : Name → Nat → K) (x : SiteTerm) (m : Nat) : K :=
  if (m : Int) < x.i then el nId m
  else if x.i = (m : Int) then el (startTerm x.op) m
  else if fermiName x.op then el nF m
  else el nId m

/-- The vector after `n` sites. -/
def partialSum (el : Name → Nat → K) (terms : List (HTerm K)) (n : Nat) (x : SiteTerm) : K :=
  if x = IL then prodTo (el nId) n
  else if x = HL then (terms.map fun t => if t.last.i ≤ (n : Int) then t.coef * prodTo (termSite el t.ops) n else 0).sum
  else prodTo (stringSite el x) n

section Basis

variable {terms : List (HTerm K)} {N : Nat}

omit [CommRing K] in
theorem mem_fold (n : Nat) (ts : List (HTerm K)) : ∀ (b : List SiteTerm) (x : SiteTerm),
    x ∈ ts.foldl (fun b t => if t.first.i ≤ (n : Int) ∧ (n : Int) ≤ t.last.i ∧ t.first ∉ b then b ++ [t.first] else b) b ↔
      x ∈ b ∨ ∃ t ∈ ts, t.first = x ∧ t.first.i ≤ (n : Int) ∧ (n : Int) ≤ t.last.i := by
  induction ts with
  | nil => simp
  | cons t ts ih =>
    intro b x
    rw [List.foldl_cons, ih]
    simp only [List.mem_cons, exists_eq_or_imp]
    split
    · simp only [List.mem_append, List.mem_singleton]
      grind
    · grind

omit [CommRing K] in
theorem nodup_fold (n : Nat) (ts : List (HTerm K)) : ∀ b : List SiteTerm, b.Nodup →
    (ts.foldl (fun b t => if t.first.i ≤ (n : Int) ∧ (n : Int) ≤ t.last.i ∧ t.first ∉ b then b ++ [t.first] else b) b).Nodup := by
  induction ts with
  | nil => simp
  | cons t ts ih =>
    intro b hb
    rw [List.foldl_cons]
    refine ih _ ?_
    split
    · rename_i h
      exact List.nodup_append.2 ⟨hb, by simp, by grind⟩
    · exact hb

omit [CommRing K] in
theorem mem_basis (n : Nat) (x : SiteTerm) : x ∈ basis terms N n ↔
    (n < N ∧ x = IL) ∨ (1 ≤ n ∧ x = HL) ∨ ∃ t ∈ terms, t.first = x ∧ t.first.i ≤ (n : Int) ∧ (n : Int) ≤ t.last.i := by
  rw [basis, mem_fold]
  by_cases h1 : n < N <;> by_cases h2 : 1 ≤ n <;> simp [h1, h2]
  tauto

theorem IL_ne_HL : IL ≠ HL := by decide

omit [CommRing K] in
theorem nodup_basis (n : Nat) : (basis terms N n).Nodup := by
  refine nodup_fold n terms _ ?_
  by_cases h1 : n < N <;> by_cases h2 : 1 ≤ n <;> simp [h1, h2, IL_ne_HL]

end Basis

section Sums

theorem sum_one {l : List SiteTerm} (hl : l.Nodup) (x : SiteTerm) (f : SiteTerm → K) :
    (l.map fun r => if r = x then f r else 0).sum = if x ∈ l then f x else 0 := by
  induction l with
  | nil => simp
  | cons a l ih =>
    rw [List.nodup_cons] at hl
    rw [List.map_cons, List.sum_cons, ih hl.2]
    by_cases h : a = x
    · subst h
      simp [hl.1]
    · simp [h, Ne.symm h]

theorem sum_filter_ite {X : Type*} (l : List X) (p : X → Prop) [DecidablePred p] (f : X → K) :
    ((l.filter fun x => decide (p x)).map f).sum = (l.map fun x => if p x then f x else 0).sum := by
  induction l with
  | nil => rfl
  | cons a l ih =>
    rw [List.filter_cons]
    by_cases h : p a <;> simp [h, ih]

/-- How many operators of a term are on site `n`. -/
def onSite (n : Nat) (ops : List SiteTerm) : Nat := (ops.filter fun st => st.i = (n : Int)).length

theorem sum_byN (terms : List (HTerm K)) (n : Nat) (f : HTerm K → K) :
    ((byN terms n).map f).sum = (terms.map fun t => (onSite n t.ops : K) * f t).sum := by
  induction terms with
  | nil => rfl
  | cons t ts ih =>
    rw [byN, List.flatMap_cons, List.map_append, List.sum_append]
    rw [byN] at ih
    rw [ih]
    simp [onSite, List.map_const']

theorem sum_comm_list {X Y : Type*} (l : List X) (k : List Y) (f : X → Y → K) :
    (l.map fun x => (k.map (f x)).sum).sum = (k.map fun y => (l.map fun x => f x y).sum).sum := by
  induction l with
  | nil => simp
  | cons a l ih => simp [ih, List.sum_map_add]

end Sums

section Step

variable {el : Name → Nat → K} {terms : List (HTerm K)} {N : Nat}

theorem zip_map (g : SiteTerm → K) (f : SiteTerm → K) (l : List SiteTerm) :
    List.zipWith (fun x r => x * f r) (l.map g) l = l.map fun r => g r * f r := by
  induction l with
  | nil => rfl
  | cons a l ih => simp [ih]

/-- The sum over the rows of one column. -/
theorem column {l : List SiteTerm} (hl : l.Nodup) (g : SiteTerm → K) (n : Nat) (c : SiteTerm) :
    (l.map fun r => g r * entry el terms n r c).sum =
      (if c.i = (n : Int) ∧ IL ∈ l then g IL * el (startTerm c.op) n else 0) +
      (if c ∈ l then g c * (if fermiName c.op then el nF n else el nId n) else 0) +
      (if c = HL then (terms.map fun t => (onSite n t.ops : K) *
        (if t.last.i = (n : Int) ∧ t.first ∈ l then g t.first * (t.coef * el (endTerm t.last.op) n) else 0)).sum else 0) +
      (if c = HL ∧ IL ∈ l then (terms.map fun t => (onSite n t.ops : K) *
        (if t.first.i = t.last.i then g IL * (t.coef * el t.first.op n) else 0)).sum else 0) := by
  simp only [entry, mul_add, List.sum_map_add]
  congr 1
  · congr 1
    · congr 1
      · by_cases hc : c.i = (n : Int)
        · have := sum_one hl IL fun r => g r * el (startTerm c.op) n
          simpa [hc] using this
        · simp [hc]
      · have := sum_one hl c fun r => g r * (if fermiName c.op = true then el nF n else el nId n)
        rw [← this]
        refine congrArg List.sum (List.map_congr_left fun r _ => ?_)
        by_cases h : r = c
        · simp [h]
        · simp [h, Ne.symm h]
    · by_cases hc : c = HL
      · simp only [hc, if_true]
        have h1 : ∀ r, g r * (((byN terms n).filter fun t => decide (r = t.first ∧ t.last.i = (n : Int))).map
            fun t => t.coef * el (endTerm t.last.op) n).sum =
            (terms.map fun t => (onSite n t.ops : K) * (if r = t.first ∧ t.last.i = (n : Int) then
              g r * (t.coef * el (endTerm t.last.op) n) else 0)).sum := by
          intro r
          rw [sum_filter_ite, sum_byN, ← List.sum_map_mul_left]
          refine congrArg List.sum (List.map_congr_left fun t _ => ?_)
          split <;> ring
        simp only [h1]
        rw [sum_comm_list]
        refine congrArg List.sum (List.map_congr_left fun t _ => ?_)
        rw [List.sum_map_mul_left]
        congr 1
        by_cases hi : t.last.i = (n : Int)
        · simpa [hi] using sum_one hl t.first fun r => g r * (t.coef * el (endTerm t.last.op) n)
        · simp [hi]
      · simp [hc]
  · by_cases hc : c = HL
    · simp only [hc, and_true, true_and]
      have := sum_one hl IL fun r => g r *
        (((byN terms n).filter fun t => decide (t.first.i = t.last.i)).map fun t => t.coef * el t.first.op n).sum
      rw [sum_filter_ite, sum_byN] at this
      have h2 : (terms.map fun t => (onSite n t.ops : K) * (if t.first.i = t.last.i then g IL * (t.coef * el t.first.op n)
          else 0)).sum = g IL * (terms.map fun t => (onSite n t.ops : K) * (if t.first.i = t.last.i then
            t.coef * el t.first.op n else 0)).sum := by
        rw [← List.sum_map_mul_left]
        refine congrArg List.sum (List.map_congr_left fun t _ => ?_)
        split <;> ring
      rw [h2, ← this]
      refine congrArg List.sum (List.map_congr_left fun r _ => ?_)
      rw [sum_filter_ite, sum_byN]
      split <;> simp
    · simp [hc]

theorem Good.first_pos {t : HTerm K} (h : Good N t.ops) : 1 ≤ t.first.i := by
  rcases h with ⟨a, e, h1, _⟩ | ⟨a, b, e, h1, _⟩ <;> simpa [HTerm.first, e] using h1

theorem Good.last_le {t : HTerm K} (h : Good N t.ops) : t.last.i ≤ N := by
  rcases h with ⟨a, e, _, h1⟩ | ⟨a, b, e, _, _, h1⟩ <;> simpa [HTerm.last, e] using h1

theorem IL_i : IL.i = 0 := rfl

theorem HL_i : HL.i = 0 := rfl

/-- Every element of a basis other than `IL` and `HL` is on a site up to that of the link. -/
theorem basis_le (hg : ∀ t ∈ terms, Good N t.ops) {n : Nat} {x : SiteTerm} (h : x ∈ basis terms N n) : x.i ≤ n := by
  rcases (mem_basis n x).1 h with ⟨_, rfl⟩ | ⟨_, rfl⟩ | ⟨t, _, rfl, h, _⟩
  · rw [IL_i]; omega
  · rw [HL_i]; omega
  · exact h

/-- One term in the column of `HL`. -/
theorem term_step (hg : ∀ t ∈ terms, Good N t.ops) {n : Nat} (hn : n + 1 ≤ N) {t : HTerm K} (ht : t ∈ terms) :
    (if t.last.i ≤ ((n + 1 : Nat) : Int) then t.coef * prodTo (termSite el t.ops) (n + 1) else 0) =
      (if t.last.i ≤ (n : Int) then t.coef * prodTo (termSite el t.ops) n else 0) * el nId (n + 1) +
      (onSite (n + 1) t.ops : K) * (if t.last.i = ((n + 1 : Nat) : Int) ∧ t.first ∈ basis terms N n then
        partialSum el terms n t.first * (t.coef * el (endTerm t.last.op) (n + 1)) else 0) +
      (onSite (n + 1) t.ops : K) * (if t.first.i = t.last.i then
        prodTo (el nId) n * (t.coef * el t.first.op (n + 1)) else 0) := by
  have hgt := hg t ht
  have hpos := hgt.first_pos
  have hle : t.first ∈ basis terms N n → t.first.i ≤ n := basis_le hg
  have hmem : t.first.i ≤ (n : Int) → (n : Int) ≤ t.last.i → t.first ∈ basis terms N n := fun h1 h2 =>
    (mem_basis n _).2 (.inr (.inr ⟨t, ht, rfl, h1, h2⟩))
  rcases hgt with ⟨a, e, h1, h2⟩ | ⟨a, b, e, h1, h2, h3⟩
  · have ef : t.first = a := by simp [HTerm.first, e]
    have el' : t.last = a := by simp [HTerm.last, e]
    rw [ef] at hle hmem ⊢
    rw [el'] at hmem ⊢
    rw [e, prodTo_succ]
    rcases lt_trichotomy a.i ((n + 1 : Nat) : Int) with h | h | h
    · have h4 : a.i ≤ (n : Int) := by omega
      have h5 : onSite (n + 1) [a] = 0 := by simp [onSite]; omega
      have h6 : termSite el [a] (n + 1) = el nId (n + 1) := by simp only [termSite]; rw [if_neg (by omega)]
      rw [if_pos h.le, if_pos h4, h5, h6]
      simp [mul_assoc]
    · have h4 : ¬a.i ≤ (n : Int) := by omega
      have h5 : onSite (n + 1) [a] = 1 := by simp [onSite, h]
      have h6 : termSite el [a] (n + 1) = el a.op (n + 1) := by simp only [termSite]; rw [if_pos h]
      have h7 : prodTo (termSite el [a]) n = prodTo (el nId) n := prodTo_congr fun m _ hm => by
        simp only [termSite]; rw [if_neg (by omega)]
      rw [if_pos h.le, if_neg h4, h5, h6, h7, if_neg fun hh => h4 (hle hh.2), if_pos rfl]
      simp
      ring
    · have h4 : ¬a.i ≤ (n : Int) := by omega
      have h5 : onSite (n + 1) [a] = 0 := by simp [onSite]; omega
      rw [if_neg (by omega), if_neg h4, h5]
      simp
  · have ef : t.first = a := by simp [HTerm.first, e]
    have el' : t.last = b := by simp [HTerm.last, e]
    rw [ef] at hle hmem ⊢
    rw [el'] at hmem ⊢
    rw [e, prodTo_succ, if_neg (c := a.i = b.i) (by omega)]
    rcases lt_trichotomy b.i ((n + 1 : Nat) : Int) with h | h | h
    · have h4 : b.i ≤ (n : Int) := by omega
      have h5 : onSite (n + 1) [a, b] = 0 := by simp [onSite]; omega
      have h6 : termSite el [a, b] (n + 1) = el nId (n + 1) := by
        simp only [termSite]
        rw [if_neg (by omega), if_neg (by omega), if_neg (by omega)]
      rw [if_pos h.le, if_pos h4, h5, h6]
      simp [mul_assoc]
    · have h4 : ¬b.i ≤ (n : Int) := by omega
      have h5 : onSite (n + 1) [a, b] = 1 := by
        have : ¬a.i = ((n + 1 : Nat) : Int) := by omega
        simp only [onSite, List.filter_cons, this, h]
        simp
      have h6 : termSite el [a, b] (n + 1) = el (endTerm b.op) (n + 1) := by
        simp only [termSite]
        rw [if_neg (by omega), if_pos h]
      have h7 : partialSum el terms n a = prodTo (termSite el [a, b]) n := by
        rw [partialSum, if_neg, if_neg]
        · refine prodTo_congr fun m _ hm => ?_
          simp only [stringSite, termSite]
          rcases lt_trichotomy (m : Int) a.i with g | g | g
          · rw [if_pos g, if_neg (by omega), if_neg (by omega), if_neg (by omega)]
          · rw [if_neg (by omega), if_pos g.symm, if_pos g.symm]
          · have g1 : a.i < (m : Int) ∧ (m : Int) < b.i := by omega
            have g2 : ¬(m : Int) < a.i := by omega
            have g3 : ¬a.i = (m : Int) := by omega
            have g4 : ¬b.i = (m : Int) := by omega
            simp only [g1, g2, g3, g4, and_self, and_true, if_false]
        · rintro rfl; rw [HL_i] at h1; omega
        · rintro rfl; rw [IL_i] at h1; omega
      rw [if_pos h.le, if_neg h4, h5, h6, h7, if_pos ⟨h, hmem (by omega) (by omega)⟩]
      simp
      ring
    · have h4 : ¬b.i ≤ (n : Int) := by omega
      rw [if_neg (by omega), if_neg h4, if_neg fun hh => by omega]
      simp

/-- One site. -/
theorem step (hg : ∀ t ∈ terms, Good N t.ops) {n : Nat} (hn : n + 1 ≤ N) {l : List SiteTerm} (hl : l.Nodup)
    (hm : ∀ x, x ∈ l ↔ x ∈ basis terms N n) {c : SiteTerm} (hc : c ∈ basis terms N (n + 1)) :
    (l.map fun r => partialSum el terms n r * entry el terms (n + 1) r c).sum = partialSum el terms (n + 1) c := by
  have hIL : IL ∈ basis terms N n := (mem_basis n _).2 (.inl ⟨by omega, rfl⟩)
  have gIL : partialSum el terms n IL = prodTo (el nId) n := by simp [partialSum]
  rw [column hl]
  simp only [hm, hIL, and_true, gIL]
  rcases (mem_basis (n + 1) c).1 hc with ⟨hc1, rfl⟩ | ⟨_, rfl⟩ | ⟨t, ht, rfl, h1, h2⟩
  · have e1 : ¬IL.i = ((n + 1 : Nat) : Int) := by rw [IL_i]; omega
    rw [if_neg e1, if_pos hIL, if_neg IL_ne_HL, if_neg IL_ne_HL, gIL, partialSum, if_pos rfl, prodTo_succ]
    have : fermiName IL.op = false := by decide
    simp [this]
  · have e1 : ¬HL.i = ((n + 1 : Nat) : Int) := by rw [HL_i]; omega
    rw [if_neg e1, if_pos rfl, if_pos rfl]
    have e2 : fermiName HL.op = false := by decide
    have e3 : (if HL ∈ basis terms N n then partialSum el terms n HL *
        (if fermiName HL.op = true then el nF (n + 1) else el nId (n + 1)) else 0) =
        partialSum el terms n HL * el nId (n + 1) := by
      by_cases h0 : HL ∈ basis terms N n
      · simp [h0, e2]
      · have hn0 : n = 0 := by
          by_contra h
          exact h0 ((mem_basis n _).2 (.inr (.inl ⟨by omega, rfl⟩)))
        have : partialSum el terms n HL = 0 := by
          rw [partialSum, if_neg (Ne.symm IL_ne_HL), if_pos rfl]
          rw [List.sum_eq_zero]
          intro x hx
          obtain ⟨t, ht, rfl⟩ := List.mem_map.1 hx
          rw [if_neg]
          have := (hg t ht).first_pos
          rcases hg t ht with ⟨a, e, h1, _⟩ | ⟨a, b, e, h1, h2, _⟩ <;> simp [HTerm.last, e] <;> omega
        simp [h0, this]
    rw [e3]
    simp only [partialSum, if_neg (Ne.symm IL_ne_HL), if_true]
    rw [zero_add, ← List.sum_map_mul_right, ← List.sum_map_add, ← List.sum_map_add]
    refine congrArg List.sum (List.map_congr_left fun t ht => ?_)
    have := term_step (el := el) hg hn ht
    simp only [partialSum] at this
    rw [this]
  · have hp := (hg t ht).first_pos
    have n1 : t.first ≠ IL := by intro h; rw [h, IL_i] at hp; omega
    have n2 : t.first ≠ HL := by intro h; rw [h, HL_i] at hp; omega
    rw [if_neg n2, if_neg n2]
    have e4 : ∀ k, partialSum el terms k t.first = prodTo (stringSite el t.first) k := fun k => by
      rw [partialSum, if_neg n1, if_neg n2]
    rw [e4, e4, prodTo_succ]
    by_cases h : t.first.i = ((n + 1 : Nat) : Int)
    · rw [if_pos h, if_neg fun hh => by have := basis_le hg hh; omega]
      have e5 : prodTo (stringSite el t.first) n = prodTo (el nId) n := prodTo_congr fun m _ hm' => by
        rw [stringSite, if_pos (by omega)]
      rw [e5, stringSite, if_neg (by omega), if_pos h]
      simp
    · rw [if_neg h, if_pos ((mem_basis n _).2 (.inr (.inr ⟨t, ht, rfl, by omega, by omega⟩)))]
      have e6 : stringSite el t.first (n + 1) = if fermiName t.first.op then el nF (n + 1) else el nId (n + 1) := by
        rw [stringSite, if_neg (by omega), if_neg h]
      rw [e6]
      simp

theorem product_eq (hg : ∀ t ∈ terms, Good N t.ops) (hN : 1 ≤ N) {b : Nat → List SiteTerm} (hb : Bases terms N b) :
    ∀ n ≤ N, product el terms b n = (b n).map (partialSum el terms n)
  | 0, _ => by
    have h0 : basis terms N 0 = [IL] := by
      have hnd := nodup_basis (terms := terms) (N := N) 0
      have hm : ∀ x, x ∈ basis terms N 0 ↔ x = IL := by
        intro x
        rw [mem_basis]
        constructor
        · rintro (⟨_, h⟩ | ⟨h, _⟩ | ⟨t, ht, _, h, _⟩)
          · exact h
          · omega
          · have := (hg t ht).first_pos
            simp at h
            omega
        · exact fun h => .inl ⟨by omega, h⟩
      exact List.perm_singleton.1 ((List.perm_ext_iff_of_nodup hnd (by simp)).2 (by simpa using hm))
    have h1 := hb 0 (by omega)
    rw [h0, List.perm_singleton] at h1
    rw [product, h1]
    simp [partialSum, prodTo]
  | n + 1, hn => by
    rw [product, product_eq hg hN hb n (by omega), vecMul]
    refine List.map_congr_left fun c hc => ?_
    rw [zip_map]
    exact step hg hn ((hb n (by omega)).nodup_iff.2 (nodup_basis n)) (fun x => (hb n (by omega)).mem_iff)
      ((hb (n + 1) hn).mem_iff.1 hc)

end Step

/-- **C50**: If each term has one operator or two operators on different sites and `HL` is first in the last basis, the
matrix product operator is the sum of the terms.

Missing: terms with two operators on one site (`C50_on_site_counterexample`) and the case that `std::sort` moves `HL`
(`C50_sort_counterexample`). -/
theorem C50_exact_partial (el : Name → Nat → K) (terms : List (HTerm K)) (N : Nat) (hN : 1 ≤ N) (b : Nat → List SiteTerm)
    (hb : Bases terms N b) (hHL : (b N).head? = some HL) (hg : ∀ t ∈ terms, Good N t.ops) :
    exactElement el terms N b =
      .ok (terms.map fun t => t.coef * ((List.range N).map fun m => termSite el t.ops (m + 1)).prod).sum := by
  have h1 : terms.any (fun t => decide (t.ops.length > 2)) = false := by
    simp only [List.any_eq_false, decide_eq_true_eq]
    intro t ht
    rcases hg t ht with ⟨a, e, _⟩ | ⟨a, b, e, _⟩ <;> simp [e]
  have h2 : terms.any (fun t => decide (t.ops.length = 0)) = false := by
    simp only [List.any_eq_false, decide_eq_true_eq]
    intro t ht
    rcases hg t ht with ⟨a, e, _⟩ | ⟨a, b, e, _⟩ <;> simp [e]
  have h3 : terms.any (fun t => t.ops.any fun st => decide (st.i < 0 ∨ (N : Int) < st.i)) = false := by
    simp only [List.any_eq_false, List.any_eq_true, decide_eq_true_eq, not_exists, not_and]
    intro t ht st hst
    rcases hg t ht with ⟨a, e, _⟩ | ⟨a, b, e, _⟩
    · rw [e] at hst; simp at hst; subst hst; omega
    · rw [e] at hst; simp at hst; rcases hst with rfl | rfl <;> omega
  rw [exactElement, h1, h2, h3, product_eq hg hN hb N (le_refl _)]
  obtain ⟨l, hl⟩ : ∃ l, b N = HL :: l := by
    cases hbN : b N with
    | nil => simp [hbN] at hHL
    | cons x l => simp [hbN] at hHL; exact ⟨l, by rw [hHL]⟩
  simp only [hl, List.map_cons, List.headD_cons, Bool.false_eq_true, if_false, partialSum, if_neg (Ne.symm IL_ne_HL),
    if_true]
  congr 2
  refine List.map_congr_left fun t ht => ?_
  rw [if_pos (hg t ht).last_le]
  rfl

/-- **C50** without quantum numbers, where nothing is sorted. -/
theorem C50_exact_noqn_partial (el : Name → Nat → K) (terms : List (HTerm K)) (N : Nat) (hN : 1 ≤ N)
    (hg : ∀ t ∈ terms, Good N t.ops) :
    exactElement el terms N (basis terms N) =
      .ok (terms.map fun t => t.coef * ((List.range N).map fun m => termSite el t.ops (m + 1)).prod).sum := by
  refine C50_exact_partial el terms N hN _ (fun _ _ => .refl _) ?_ hg
  rw [basis]
  have : ∀ (ts : List (HTerm K)) (b : List SiteTerm), b.head? = some HL →
      (ts.foldl (fun b t => if t.first.i ≤ (N : Int) ∧ (N : Int) ≤ t.last.i ∧ t.first ∉ b then b ++ [t.first] else b)
        b).head? = some HL := by
    intro ts
    induction ts with
    | nil => exact fun b h => h
    | cons t ts ih =>
      intro b h
      rw [List.foldl_cons]
      refine ih _ ?_
      split
      · cases b with
        | nil => simp at h
        | cons x b => simpa using h
      · exact h
  refine this terms _ ?_
  simp [hN]

end Verif.AutoMPO
