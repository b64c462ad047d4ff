import Mathlib.Algebra.Algebra.Basic
import Mathlib.Algebra.BigOperators.Group.List.Basic
import Mathlib.Algebra.Module.BigOperators
import Mathlib.Data.Matrix.Mul
import Mathlib.LinearAlgebra.Matrix.Notation
import Mathlib.Tactic.Abel
import Mathlib.Tactic.Ring
import Verif.AutoMPO.Terms

/-!
# Properties of the terms of an `AutoMPO` (C48, C49)
-/

namespace Verif.AutoMPO

variable {K : Type*} [CommRing K]

section Order

variable {A : Type*} [Ring A] [Algebra K A]

/-- The operators of different sites commute, except that those with names starting with `C` anticommute. -/
def Graded (K : Type*) [CommRing K] {A : Type*} [Ring A] [Algebra K A] (val : Name → Int → A) : Prop :=
  ∀ a b i j, i ≠ j →
    val a i * val b j = (if fermiName a = true ∧ fermiName b = true then -1 else 1 : K) • (val b j * val a i)

/-- The product of some operators. -/
def prodOps (val : Name → Int → A) (ops : List SiteTerm) : A := (ops.map fun t => val t.op t.i).prod

omit [Algebra K A] in
theorem prodOps_append (val : Name → Int → A) (a b : List SiteTerm) :
    prodOps val (a ++ b) = prodOps val a * prodOps val b := by simp [prodOps]

omit [Algebra K A] in
theorem prodOps_cons (val : Name → Int → A) (a : SiteTerm) (b : List SiteTerm) :
    prodOps val (a :: b) = val a.op a.i * prodOps val b := by simp [prodOps]

theorem prodOps_comm {val : Name → Int → A} (h : Graded K val) (op : Name) (i : Int) :
    ∀ ops : List SiteTerm, (∀ t ∈ ops, t.i ≠ i) →
      prodOps val ops * val op i =
        (if fermiName op = true ∧ fermiProd ops = true then -1 else 1 : K) • (val op i * prodOps val ops)
  | [], _ => by simp [prodOps, fermiProd]
  | t :: ops, hi => by
    rw [prodOps_cons, mul_assoc, prodOps_comm h op i ops fun u hu => hi u (by simp [hu]), mul_smul_comm, ← mul_assoc,
      h t.op op t.i i (hi t (by simp)), smul_mul_assoc, smul_smul, mul_assoc]
    congr 1
    by_cases h1 : fermiName op = true <;> by_cases h2 : fermiName t.op = true <;> cases h3 : fermiProd ops <;>
      simp [fermiProd, h1, h2, h3]

/-- The operators are in the order of their sites. -/
def Sorted (ops : List SiteTerm) : Prop := ops.Pairwise fun a b => a.i ≤ b.i

theorem left_right (i : Int) (ops : List SiteTerm) : leftOps i ops ++ rightOps i ops = ops :=
  List.takeWhile_append_dropWhile

theorem left_le {i : Int} {ops : List SiteTerm} : ∀ t ∈ leftOps i ops, t.i ≤ i := fun t ht => by
  have h : (ops.takeWhile fun t => decide (t.i ≤ i)).all (fun t => decide (t.i ≤ i)) = true := List.all_takeWhile
  simpa using List.all_eq_true.1 h t ht

theorem right_gt {i : Int} : ∀ {ops : List SiteTerm}, Sorted ops → ∀ t ∈ rightOps i ops, i < t.i
  | [], _, t, ht => by simp [rightOps] at ht
  | u :: ops, hs, t, ht => by
    rw [Sorted, List.pairwise_cons] at hs
    by_cases hu : u.i ≤ i
    · rw [rightOps, List.dropWhile_cons_of_pos (by simpa using hu)] at ht
      exact right_gt hs.2 t ht
    · rw [rightOps, List.dropWhile_cons_of_neg (by simpa using hu)] at ht
      rcases List.mem_cons.1 ht with rfl | h
      · omega
      · have := hs.1 t h
        omega

theorem add_ops (t : HTerm K) (op : Name) (i : Int) (x : K) :
    (t.add op i x).ops = leftOps i t.ops ++ ⟨op, i⟩ :: rightOps i t.ops := rfl

theorem add_coef (t : HTerm K) (op : Name) (i : Int) (x : K) :
    (t.add op i x).coef =
      t.coef * x * (if fermiName op = true ∧ fermiProd (rightOps i t.ops) = true then -1 else 1) := by
  unfold HTerm.add
  dsimp only
  by_cases h1 : fermiName op = true <;> by_cases h2 : fermiProd (rightOps i t.ops) = true <;>
    by_cases h3 : rightOps i t.ops = [] <;> simp [h1, h2, h3, fermiProd]

theorem add_sorted {t : HTerm K} (hs : Sorted t.ops) (op : Name) (i : Int) (x : K) : Sorted (t.add op i x).ops := by
  have h := left_right i t.ops
  have hs' : Sorted (leftOps i t.ops ++ rightOps i t.ops) := by rw [h]; exact hs
  have hl := left_le (i := i) (ops := t.ops)
  have hr := right_gt (i := i) hs
  rw [add_ops, Sorted, List.pairwise_append] at *
  refine ⟨hs'.1, List.pairwise_cons.2 ⟨fun b hb => (hr b hb).le, hs'.2.1⟩, fun a ha b hb => ?_⟩
  rcases List.mem_cons.1 hb with rfl | hb
  · exact hl a ha
  · exact hs'.2.2 a ha b hb

theorem add_value {val : Name → Int → A} (h : Graded K val) {t : HTerm K} (hs : Sorted t.ops) (op : Name) (i : Int)
    (x : K) :
    (t.add op i x).coef • prodOps val (t.add op i x).ops = x • ((t.coef • prodOps val t.ops) * val op i) := by
  have h0 : prodOps val t.ops = prodOps val (leftOps i t.ops) * prodOps val (rightOps i t.ops) := by
    rw [← prodOps_append, left_right]
  rw [add_coef, add_ops, prodOps_append, prodOps_cons, h0, smul_mul_assoc,
    mul_assoc (prodOps val (leftOps i t.ops)), prodOps_comm h op i _ fun u hu => (right_gt hs u hu).ne', mul_smul_comm, smul_smul, smul_smul]
  congr 1
  ring

/-- The operators on one site keep their order. -/
theorem add_site {t : HTerm K} (hs : Sorted t.ops) (op : Name) (i j : Int) (x : K) :
    (t.add op i x).ops.filter (fun u => u.i = j) =
      t.ops.filter (fun u => u.i = j) ++ if i = j then [⟨op, i⟩] else [] := by
  have hr := right_gt (i := i) hs
  conv_rhs => rw [← left_right i t.ops]
  rw [add_ops, List.filter_append, List.filter_append, List.filter_cons]
  by_cases hj : i = j
  · subst hj
    have : (rightOps i t.ops).filter (fun u => u.i = i) = [] := by
      rw [List.filter_eq_nil_iff]
      intro u hu
      have := hr u hu
      simp
      omega
    simp [this]
  · simp [hj]

/-- Operators entered one after the other, each with a factor. -/
def entered (es : List (SiteTerm × K)) : HTerm K := es.foldl (fun t e => t.add e.1.op e.1.i e.2) .new

theorem entered_snoc (es : List (SiteTerm × K)) (e : SiteTerm × K) :
    entered (es ++ [e]) = (entered es).add e.1.op e.1.i e.2 := by simp [entered]

/-- **C48**: A term equals the product of the operators in the order in which they were entered, its operators are in the
order of their sites, and those on one site stay in the order of entry. -/
theorem C48_entry_order (val : Name → Int → A) (h : Graded K val) (es : List (SiteTerm × K)) :
    (entered es).coef • prodOps val (entered es).ops =
        (es.map (·.2)).prod • (es.map fun e => val e.1.op e.1.i).prod ∧
      (entered es).ops.Pairwise (fun a b => a.i ≤ b.i) ∧
      ∀ j, (entered es).ops.filter (fun u => u.i = j) = (es.map (·.1)).filter (fun u => u.i = j) := by
  induction es using List.reverseRecOn with
  | nil => simp [entered, HTerm.new, prodOps]
  | append_singleton es e ih =>
    obtain ⟨h1, h2, h3⟩ := ih
    rw [entered_snoc]
    refine ⟨?_, add_sorted h2 _ _ _, fun j => ?_⟩
    · rw [add_value h h2, h1]
      simp [smul_smul, mul_comm]
    · rw [add_site h2, h3]
      simp only [List.map_append, List.filter_append, List.map_cons, List.map_nil, List.filter_cons, List.filter_nil,
        decide_eq_true_eq]

end Order

section Set

theorem SiteTerm.less_irrefl (a : SiteTerm) : a.less a = false := by simp [SiteTerm.less]

theorem SiteTerm.less_trans {a b c : SiteTerm} (h1 : a.less b = true) (h2 : b.less c = true) : a.less c = true := by
  simp only [SiteTerm.less] at *
  split at h1 <;> split at h2 <;> split <;> simp only [decide_eq_true_eq, ne_eq, Decidable.not_not] at * <;>
    first | omega | exact lt_trans h1 h2

theorem SiteTerm.less_total {a b : SiteTerm} (h1 : a.less b = false) (h2 : b.less a = false) : a = b := by
  simp only [SiteTerm.less] at *
  by_cases h : a.i = b.i
  · simp only [h, ne_eq, not_true_eq_false, if_false, decide_eq_false_iff_not, not_lt] at h1 h2
    cases a
    cases b
    simp only [SiteTerm.mk.injEq]
    exact ⟨le_antisymm h2 h1, h⟩
  · simp only [h, Ne.symm h, ne_eq, not_false_eq_true, if_true, decide_eq_false_iff_not, not_lt] at h1 h2
    omega

theorem lessOps_irrefl : ∀ a : List SiteTerm, lessOps a a = false
  | [] => rfl
  | a :: as => by simp [lessOps, lessOps_irrefl as]

theorem lessOps_trans : ∀ {a b c : List SiteTerm}, lessOps a b = true → lessOps b c = true → lessOps a c = true
  | a :: as, b :: bs, c :: cs, h1, h2 => by
    simp only [lessOps] at *
    by_cases hab : a = b
    · subst hab
      by_cases hac : a = c
      · subst hac
        simp only [ne_eq, not_true_eq_false, if_false] at *
        exact lessOps_trans h1 h2
      · simp only [ne_eq, hac, not_false_eq_true, if_true] at *
        exact h2
    · by_cases hbc : b = c
      · subst hbc
        simp only [ne_eq, hab, not_false_eq_true, if_true] at *
        exact h1
      · simp only [ne_eq, hab, hbc, not_false_eq_true, if_true] at *
        have h := SiteTerm.less_trans h1 h2
        rw [if_pos]
        · exact h
        · rintro rfl
          rw [SiteTerm.less_irrefl] at h
          cases h
  | [], _, _, h, _ => by simp [lessOps] at h
  | _ :: _, [], _, h, _ => by simp [lessOps] at h
  | _ :: _, _ :: _, [], _, h => by simp [lessOps] at h

theorem lessOps_total : ∀ {a b : List SiteTerm}, a.length = b.length → lessOps a b = false → lessOps b a = false → a = b
  | [], [], _, _, _ => rfl
  | a :: as, b :: bs, hl, h1, h2 => by
    simp only [lessOps] at *
    by_cases hab : a = b
    · subst hab
      simp only [ne_eq, not_true_eq_false, if_false] at *
      rw [lessOps_total (by simpa using hl) h1 h2]
    · simp only [ne_eq, hab, Ne.symm hab, not_false_eq_true, if_true] at h1 h2
      exact absurd (SiteTerm.less_total h1 h2) hab
  | [], _ :: _, h, _, _ => by simp at h
  | _ :: _, [], h, _, _ => by simp at h

omit [CommRing K] in
theorem lessNoCoef_trans {a b c : HTerm K} (h1 : lessNoCoef a b = true) (h2 : lessNoCoef b c = true) :
    lessNoCoef a c = true := by
  simp only [lessNoCoef] at *
  split at h1 <;> split at h2 <;> split <;> simp only [decide_eq_true_eq, ne_eq, Decidable.not_not] at * <;>
    first | omega | exact lessOps_trans h1 h2

omit [CommRing K] in
/-- Neither of two terms is before the other exactly when they have the same operators. -/
theorem same_iff (a b : HTerm K) : (!lessNoCoef a b && !lessNoCoef b a) = true ↔ a.ops = b.ops := by
  simp only [lessNoCoef]
  constructor
  · intro h
    by_cases hl : a.ops.length = b.ops.length
    · simp [hl] at h
      exact lessOps_total hl h.1 h.2
    · simp [hl, Ne.symm hl] at h
      omega
  · intro h
    simp [h, lessOps_irrefl]

variable [DecidableEq K]

omit [CommRing K] [DecidableEq K] in
theorem insert_perm {t : HTerm K} : ∀ {s : List (HTerm K)}, (∀ u ∈ s, u.ops ≠ t.ops) → (insert t s).Perm (t :: s)
  | [], _ => .refl _
  | u :: s, h => by
    rw [insert]
    split
    · exact .refl _
    · rename_i h1
      split
      · exact ((insert_perm fun v hv => h v (by simp [hv])).cons u).trans (List.Perm.swap _ _ _)
      · rename_i h2
        exact absurd ((same_iff u t).1 (by simp [h1, h2])) (h u (by simp))

omit [CommRing K] [DecidableEq K] in
theorem insert_sorted {t : HTerm K} : ∀ {s : List (HTerm K)}, s.Pairwise (fun a b => lessNoCoef a b = true) →
    (∀ u ∈ s, u.ops ≠ t.ops) → (insert t s).Pairwise fun a b => lessNoCoef a b = true
  | [], _, _ => by simp [insert]
  | u :: s, hs, h => by
    have hs' := List.pairwise_cons.1 hs
    rw [insert]
    split
    · rename_i h1
      exact List.pairwise_cons.2 ⟨fun v hv => by
        rcases List.mem_cons.1 hv with rfl | hv
        · exact h1
        · exact lessNoCoef_trans h1 (hs'.1 v hv), hs⟩
    · rename_i h1
      have h' : ∀ v ∈ s, v.ops ≠ t.ops := fun v hv => h v (by simp [hv])
      split
      · rename_i h2
        refine List.pairwise_cons.2 ⟨fun v hv => ?_, insert_sorted hs'.2 h'⟩
        rcases List.mem_cons.1 ((insert_perm h').mem_iff.1 hv) with rfl | hv
        · exact h2
        · exact hs'.1 v hv
      · exact hs

omit [CommRing K] [DecidableEq K] in
theorem find_none {s : List (HTerm K)} {t : HTerm K} (h : find s t = none) : ∀ u ∈ s, u.ops ≠ t.ops := fun u hu e =>
  List.find?_eq_none.1 h u hu ((same_iff u t).2 e)

omit [CommRing K] [DecidableEq K] in
theorem find_some {s : List (HTerm K)} {t u : HTerm K} (h : find s t = some u) :
    u.ops = t.ops ∧ s.Perm (u :: erase s t) := by
  refine ⟨(same_iff u t).1 (List.find?_some (p := fun u => !lessNoCoef u t && !lessNoCoef t u) h), ?_⟩
  induction s with
  | nil => simp [find] at h
  | cons v s ih =>
    rw [find, List.find?_cons] at h
    by_cases hv : (!lessNoCoef v t && !lessNoCoef t v) = true
    · rw [hv] at h
      injection h with h
      subst h
      rw [erase, List.eraseP_cons_of_pos (p := fun u => !lessNoCoef u t && !lessNoCoef t u) hv]
    · simp only [hv] at h
      rw [erase, List.eraseP_cons_of_neg (p := fun u => !lessNoCoef u t && !lessNoCoef t u) hv]
      exact ((ih h).cons v).trans (List.Perm.swap _ _ _)

omit [CommRing K] [DecidableEq K] in
theorem less_ne {a b : HTerm K} (h : lessNoCoef a b = true) : a.ops ≠ b.ops := fun e => by
  have := (same_iff a b).2 e
  simp [h] at this

omit [CommRing K] [DecidableEq K] in
theorem erase_ne {s : List (HTerm K)} {t u : HTerm K} (hs : s.Pairwise fun a b => lessNoCoef a b = true)
    (h : find s t = some u) : ∀ v ∈ erase s t, v.ops ≠ t.ops := by
  obtain ⟨h1, h2⟩ := find_some h
  have hn : s.Pairwise fun a b => a.ops ≠ b.ops := hs.imp less_ne
  have := (h2.pairwise_iff (R := fun a b : HTerm K => a.ops ≠ b.ops) fun h => Ne.symm h).1 hn
  exact fun v hv => h1 ▸ Ne.symm ((List.pairwise_cons.1 this).1 v hv)

theorem add_sum {M : Type*} [AddCommGroup M] [Module K M] (f : List SiteTerm → M) {s : List (HTerm K)}
    (hs : s.Pairwise fun a b => lessNoCoef a b = true) (t : HTerm K) :
    ((add s t).map fun u => u.coef • f u.ops).sum = (s.map fun u => u.coef • f u.ops).sum + t.coef • f t.ops := by
  rw [add]
  split
  · rename_i h
    simp [h]
  · split
    · rename_i h
      rw [((insert_perm (find_none h)).map _).sum_eq]
      simp [add_comm]
    · rename_i u h
      obtain ⟨h1, h2⟩ := find_some h
      rw [((insert_perm (t := ⟨t.coef + u.coef, t.ops⟩) (s := erase s t) (erase_ne hs h)).map _).sum_eq, (h2.map _).sum_eq]
      simp only [List.map_cons, List.sum_cons, h1, add_smul]
      abel

theorem add_pairwise {s : List (HTerm K)} (hs : s.Pairwise fun a b => lessNoCoef a b = true) (t : HTerm K) :
    (add s t).Pairwise fun a b => lessNoCoef a b = true := by
  rw [add]
  split
  · exact hs
  · split
    · rename_i h
      exact insert_sorted hs (find_none h)
    · rename_i u h
      exact insert_sorted (hs.sublist (List.eraseP_sublist ..)) (erase_ne hs h)

theorem adds_pairwise (ts : List (HTerm K)) : ∀ s : List (HTerm K), s.Pairwise (fun a b => lessNoCoef a b = true) →
    (ts.foldl add s).Pairwise (fun a b => lessNoCoef a b = true) := by
  induction ts with
  | nil => exact fun s hs => hs
  | cons t ts ih => exact fun s hs => ih (add s t) (add_pairwise hs t)

theorem adds_sum {M : Type*} [AddCommGroup M] [Module K M] (f : List SiteTerm → M) (ts : List (HTerm K)) :
    ∀ s : List (HTerm K), s.Pairwise (fun a b => lessNoCoef a b = true) →
      ((ts.foldl add s).map fun u => u.coef • f u.ops).sum =
        (s.map fun u => u.coef • f u.ops).sum + (ts.map fun u => u.coef • f u.ops).sum := by
  induction ts with
  | nil => simp
  | cons t ts ih =>
    intro s hs
    rw [List.foldl_cons, ih (add s t) (add_pairwise hs t), add_sum f hs]
    simp [add_assoc]

theorem sum_filter (ops : List SiteTerm) (s : List (HTerm K)) :
    ((s.filter fun u => u.ops = ops).map (·.coef)).sum =
      (s.map fun u => u.coef • (if u.ops = ops then 1 else 0 : K)).sum := by
  induction s with
  | nil => rfl
  | cons u s ih =>
    rw [List.filter_cons]
    by_cases h : u.ops = ops <;> simp [h] at ih ⊢ <;> rw [ih]

theorem adds_mem (ts : List (HTerm K)) : ∀ s : List (HTerm K), ∀ u ∈ ts.foldl add s,
    (∃ v ∈ s, v.ops = u.ops) ∨ ∃ v ∈ ts, v.ops = u.ops := by
  induction ts with
  | nil => exact fun s u hu => .inl ⟨u, hu, rfl⟩
  | cons t ts ih =>
    intro s u hu
    rcases ih (add s t) u hu with ⟨v, hv, e⟩ | ⟨v, hv, e⟩
    · have hi : ∀ (t : HTerm K) (l : List (HTerm K)), v ∈ insert t l → v ∈ l ∨ v = t := by
        intro t l
        induction l with
        | nil => simp [insert]
        | cons w l ih2 =>
          rw [insert]
          split
          · simp; tauto
          · split
            · simp; tauto
            · simp; tauto
      rw [add] at hv
      split at hv
      · exact .inl ⟨v, hv, e⟩
      · split at hv
        · rcases hi _ _ hv with h | rfl
          · exact .inl ⟨v, h, e⟩
          · exact .inr ⟨v, by simp, e⟩
        · rcases hi _ _ hv with h | rfl
          · exact .inl ⟨v, List.mem_of_mem_eraseP h, e⟩
          · exact .inr ⟨t, by simp, e⟩
    · exact .inr ⟨v, by simp [hv], e⟩

/-- **C49**: After any sequence of calls of `AutoMPO::add` there is at most one stored term for each list of operators, its
coefficient is the sum of those which were entered for this list, and every stored list was entered. -/
theorem C49_coefficients (ts : List (HTerm K)) :
    (ts.foldl add []).Pairwise (fun a b => a.ops ≠ b.ops) ∧
      (∀ u ∈ ts.foldl add [], u.ops ∈ ts.map (·.ops)) ∧
      ∀ ops, (((ts.foldl add []).filter fun u => u.ops = ops).map (·.coef)).sum =
        ((ts.filter fun u => u.ops = ops).map (·.coef)).sum := by
  refine ⟨(adds_pairwise ts [] (by simp)).imp less_ne, fun u hu => ?_, fun ops => ?_⟩
  · rcases adds_mem ts [] u hu with ⟨v, hv, _⟩ | ⟨v, hv, e⟩
    · simp at hv
    · exact List.mem_map.2 ⟨v, hv, e⟩
  · rw [sum_filter, sum_filter, adds_sum (fun o => if o = ops then (1 : K) else 0) ts [] (by simp)]
    simp

end Set

section Program

variable [DecidableEq K]

/-- A factor of a term as a user writes it. -/
inductive Factor (K : Type*)
  | num (z : K)
  | int (i : Int)
  | op (s : Name) (i : Int)

/-- What is passed for a factor. -/
def Factor.items : Factor K → List (Item K)
  | .num z => [.num z]
  | .int i => [.int i]
  | .op s i => [.str s, .int i]

/-- The number which a factor is, 1 for operators. -/
def Factor.scalar : Factor K → K
  | .num z => z
  | .int i => (i : K)
  | .op _ _ => 1

/-- The operator of a factor. -/
def Factor.site : Factor K → Option SiteTerm
  | .op s i => some ⟨s, i⟩
  | _ => none

/-- The statements `ampo += …;` of a program, one after the other. -/
def program (prog : List (Item K × List (Item K))) : Res (List (HTerm K)) :=
  Res.foldM (fun s st => statement s st.1 st.2) [] prog

omit [DecidableEq K] in
theorem start_eq (x : Item K) : Acc.step ⟨none, 1, .new⟩ x = .ok (Acc.start x) := by
  cases x <;> simp [Acc.step, Acc.start]

omit [DecidableEq K] in
theorem steps_factors (fs : List (Factor K)) : ∀ (c : K) (es : List SiteTerm),
    Res.foldM Acc.step ⟨none, c, entered (es.map fun e => (e, 1))⟩ (fs.flatMap Factor.items) =
      .ok ⟨none, c * (fs.map Factor.scalar).prod, entered ((es ++ fs.filterMap Factor.site).map fun e => (e, 1))⟩ := by
  induction fs with
  | nil => simp
  | cons f fs ih =>
    intro c es
    rw [List.flatMap_cons, Res.foldM_append]
    cases f with
    | num z => simp [Factor.items, Acc.step, ih, Factor.scalar, List.filterMap_cons, Factor.site, mul_assoc]
    | int i => simp [Factor.items, Acc.step, ih, Factor.scalar, List.filterMap_cons, Factor.site, mul_assoc]
    | op s i =>
      have := ih c (es ++ [⟨s, i⟩])
      simp only [List.map_append, List.map_cons, List.map_nil, entered_snoc] at this
      simp [Factor.items, Acc.step, Factor.scalar, List.filterMap_cons, Factor.site, this]

omit [DecidableEq K] in
theorem entered_length (es : List (SiteTerm × K)) : (entered es).ops.length = es.length := by
  induction es using List.reverseRecOn with
  | nil => rfl
  | append_singleton es e ih =>
    have := congrArg List.length (left_right e.1.i (entered es).ops)
    rw [List.length_append] at this
    rw [entered_snoc, add_ops, List.length_append, List.length_cons, List.length_append, ← ih, ← this]
    simp [add_assoc]

theorem statement_ok {fs : List (Factor K)} {x : Item K} {ys : List (Item K)} (hx : fs.flatMap Factor.items = x :: ys)
    (h : fs.filterMap Factor.site ≠ []) (s : List (HTerm K)) :
    statement s x ys = .ok (add s ⟨(entered ((fs.filterMap Factor.site).map fun e => (e, (1 : K)))).coef *
      (fs.map Factor.scalar).prod, (entered ((fs.filterMap Factor.site).map fun e => (e, (1 : K)))).ops⟩) := by
  have h1 := steps_factors fs 1 []
  rw [hx, Res.foldM_cons] at h1
  have h2 : entered ([].map fun e : SiteTerm => (e, (1 : K))) = HTerm.new := rfl
  rw [h2, start_eq] at h1
  simp only [Res.bind_ok] at h1
  rw [statement, h1]
  have h3 : (entered ((fs.filterMap Factor.site).map fun e => (e, (1 : K)))).ops.length ≠ 0 := by
    rw [entered_length, List.length_map]
    simpa using h
  simp only [Acc.finish, HTerm.scale, Option.isSome_none, Bool.false_eq_true, if_false, Res.bind_ok, List.nil_append,
    one_mul, if_neg h3]

variable {A : Type*} [Ring A] [Algebra K A]

/-- **C49**: After any program of statements, each with at least one operator and every operator with a site, the stored
terms represent the sum over the statements of the product of the numbers and of the operators in the order in which they
are written, and no list of operators is stored twice. -/
theorem C49_program (val : Name → Int → A) (h : Graded K val) (prog : List (List (Factor K)))
    (items : List (Item K × List (Item K))) (hi : prog.map (·.flatMap Factor.items) = items.map fun x => x.1 :: x.2)
    (hp : ∀ fs ∈ prog, fs.filterMap Factor.site ≠ []) :
    ∃ s, program items = .ok s ∧
      (s.map fun t => t.coef • prodOps val t.ops).sum =
        (prog.map fun fs => (fs.map Factor.scalar).prod •
          ((fs.filterMap Factor.site).map fun t => val t.op t.i).prod).sum ∧
      s.Pairwise (fun a b => a.ops ≠ b.ops) ∧
      ∀ t ∈ s, t.ops.Pairwise fun a b => a.i ≤ b.i := by
  suffices H : ∀ s0 : List (HTerm K), s0.Pairwise (fun a b => lessNoCoef a b = true) →
      (∀ t ∈ s0, t.ops.Pairwise fun a b => a.i ≤ b.i) →
      ∃ s, Res.foldM (fun s st => statement s st.1 st.2) s0 items = .ok s ∧
        (s.map fun t => t.coef • prodOps val t.ops).sum = (s0.map fun t => t.coef • prodOps val t.ops).sum +
          (prog.map fun fs => (fs.map Factor.scalar).prod •
            ((fs.filterMap Factor.site).map fun t => val t.op t.i).prod).sum ∧
        s.Pairwise (fun a b => a.ops ≠ b.ops) ∧
        ∀ t ∈ s, t.ops.Pairwise fun a b => a.i ≤ b.i by
    simpa [program] using H [] (by simp) (by simp)
  induction prog generalizing items with
  | nil =>
    intro s0 hs ht
    cases items with
    | nil => exact ⟨s0, rfl, by simp, hs.imp less_ne, ht⟩
    | cons x items => simp at hi
  | cons fs prog ih =>
    intro s0 hs ht
    cases items with
    | nil => simp at hi
    | cons x items =>
      simp only [List.map_cons, List.cons.injEq] at hi
      have hs1 := statement_ok hi.1 (hp fs (by simp)) s0
      have hv := C48_entry_order val h ((fs.filterMap Factor.site).map fun e => (e, (1 : K)))
      generalize entered ((fs.filterMap Factor.site).map fun e => (e, (1 : K))) = t at hs1 hv
      have h1 := add_pairwise hs ⟨t.coef * (fs.map Factor.scalar).prod, t.ops⟩
      have h2 : ∀ u ∈ add s0 ⟨t.coef * (fs.map Factor.scalar).prod, t.ops⟩, u.ops.Pairwise fun a b => a.i ≤ b.i := by
        intro u hu
        rcases adds_mem [⟨t.coef * (fs.map Factor.scalar).prod, t.ops⟩] s0 u hu with ⟨v, hv', e⟩ | ⟨v, hv', e⟩
        · exact e ▸ ht v hv'
        · simp only [List.mem_singleton] at hv'
          subst hv'
          exact e ▸ hv.2.1
      obtain ⟨s, e1, e2, e3, e4⟩ := ih items hi.2 (fun fs hfs => hp fs (by simp [hfs])) _ h1 h2
      refine ⟨s, ?_, ?_, e3, e4⟩
      · rw [Res.foldM_cons, hs1]
        exact e1
      · rw [e2, add_sum (prodOps val) hs, List.map_cons, List.sum_cons, ← add_assoc]
        congr 2
        have := hv.1
        rw [List.map_map, List.map_map] at this
        rw [mul_comm, mul_smul, this]
        simp [Function.comp_def]

/-- A statement without operators is not accepted. -/
theorem C49_no_operator (s : List (HTerm K)) (x : Item K) (ys : List (Item K))
    (h : ∀ y ∈ x :: ys, ∀ n, y ≠ .str n) : statement s x ys = .throw := by
  have hi : ∃ fs : List (Factor K), fs.flatMap Factor.items = x :: ys ∧ fs.filterMap Factor.site = [] := by
    generalize x :: ys = l at h
    induction l with
    | nil => exact ⟨[], rfl, rfl⟩
    | cons y l ih =>
      obtain ⟨fs, e1, e2⟩ := ih fun z hz => h z (by simp [hz])
      cases y with
      | num z => exact ⟨.num z :: fs, by simp [Factor.items, e1], by simp [List.filterMap_cons, Factor.site, e2]⟩
      | int i => exact ⟨.int i :: fs, by simp [Factor.items, e1], by simp [List.filterMap_cons, Factor.site, e2]⟩
      | str n => exact absurd rfl (h _ (by simp) n)
  obtain ⟨fs, e1, e2⟩ := hi
  have h1 := steps_factors fs 1 []
  have h2 : entered ([].map fun e : SiteTerm => (e, (1 : K))) = HTerm.new := rfl
  rw [e1, Res.foldM_cons, h2, start_eq] at h1
  simp only [Res.bind_ok] at h1
  rw [statement, h1, e2]
  rfl

/-- A statement whose last operator has no site, or which has two names in a row, is not accepted. -/
theorem C49_no_site (s : List (HTerm K)) (x : Item K) (ys : List (Item K)) (a b : List (Item K)) (n : Name)
    (nums : List K) (hx : x :: ys = a ++ .str n :: nums.map .num ++ b) (hb : b = [] ∨ ∃ m b', b = .str m :: b') :
    statement s x ys = .throw := by
  have h1 : Res.foldM Acc.step (Acc.start x) ys = Res.foldM Acc.step ⟨none, 1, .new⟩ (x :: ys) := by
    rw [Res.foldM_cons, start_eq]
    rfl
  rw [statement, h1, hx, Res.foldM_append, Res.foldM_append]
  have hst : ∀ l (c : Acc K), Res.foldM Acc.step c l ≠ .ub := by
    intro l
    induction l with
    | nil => simp
    | cons y l ih =>
      intro c
      rw [Res.foldM_cons]
      cases y with
      | num z => exact ih _
      | int i => cases hc : c.op <;> simp only [Acc.step, hc, Res.bind_ok] <;> exact ih _
      | str m => cases hc : c.op <;> simp [Acc.step, hc, ih]
  have hn : ∀ (l : List K) (c : Acc K), Res.foldM Acc.step c (l.map Item.num) = .ok { c with coef := c.coef * l.prod } := by
    intro l
    induction l with
    | nil => simp
    | cons y l ih => intro c; simp [Acc.step, ih, mul_assoc]
  cases h2 : Res.foldM Acc.step (⟨none, 1, .new⟩ : Acc K) a with
  | throw => rfl
  | ub => exact absurd h2 (hst _ _)
  | ok c =>
    simp only [Res.bind_ok, Res.foldM_cons]
    cases hc : c.op with
    | some m => simp [Acc.step, hc]
    | none =>
      simp only [Acc.step, hc, Res.bind_ok, hn]
      rcases hb with rfl | ⟨m, b', rfl⟩
      · simp [Acc.finish]
      · simp [Acc.step]

end Program

end Verif.AutoMPO
