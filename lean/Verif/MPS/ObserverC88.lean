import Verif.MPS.Observer
import Mathlib.Analysis.SpecialFunctions.Log.NegMulLog
import Mathlib.Analysis.Convex.Jensen

/-! # C88: when a DMRG calculation stops, and what it reports -/

noncomputable section

namespace Verif.Observer

/-! ## One sweep -/

/-- The bonds in the order in which they are visited. -/
def order (N : Nat) : List (Int × Int) :=
  (List.range (N - 1)).map (fun (i : Nat) => ((i : Int) + 1, 1)) ++ (List.range (N - 1)).map (fun (i : Nat) => ((N : Int) - 1 - i, 2))

def after (c : Calc) (sw : Nat) (l : List (Int × Int)) (j : Job) : Job := l.foldl (fun j p => body c sw p.1 p.2 j) j

theorem bonds_back (c : Calc) (sw : Nat) : ∀ (n k : Nat) (j : Job), n + 1 ≤ k →
    bonds c sw k ((n : Int) + 1) 2 j = some (after c sw ((List.range (n + 1)).map fun (i : Nat) => ((n : Int) + 1 - i, 2)) j) := by
  intro n
  induction n with
  | zero =>
    intro k j hk
    obtain ⟨k, rfl⟩ : ∃ k', k = k' + 1 := ⟨k - 1, by omega⟩
    rw [bonds, if_pos (by omega)]
    have : Sweeps.next c.N 2 1 (((0 : Nat) : Int) + 1, 2) = (1, 3) := by simp [Sweeps.next]
    rw [this]
    cases k <;> simp [bonds, after]
  | succ n ih =>
    intro k j hk
    obtain ⟨k, rfl⟩ : ∃ k', k = k' + 1 := ⟨k - 1, by omega⟩
    rw [bonds, if_pos (by omega)]
    have : Sweeps.next c.N 2 1 (((n + 1 : Nat) : Int) + 1, 2) = ((n : Int) + 1, 2) := by
      simp only [Sweeps.next, show ¬ (2 : Int) = 1 by decide, if_false]
      rw [if_neg (by push_cast; omega)]
      push_cast
      congr 1
      ring
    have hl : (List.range (n + 1 + 1)).map (fun (i : Nat) => (((n + 1 : Nat) : Int) + 1 - i, (2 : Int))) =
        (((n + 1 : Nat) : Int) + 1, 2) :: (List.range (n + 1)).map fun (i : Nat) => ((n : Int) + 1 - i, 2) := by
      rw [List.range_succ_eq_map, List.map_cons, List.map_map]
      refine List.cons_eq_cons.2 ⟨by simp, List.map_congr_left fun i _ => ?_⟩
      simp only [Function.comp]
      push_cast
      congr 1
      ring
    rw [this, ih k _ (by omega), hl]
    rfl

theorem bonds_forth (c : Calc) (sw : Nat) (hN : 2 ≤ c.N) : ∀ (n k b : Nat) (j : Job), b + n + 1 = c.N → 1 ≤ b → n + 1 + (c.N - 1) ≤ k →
    bonds c sw k b 1 j = some (after c sw ((List.range (n + 1)).map (fun (i : Nat) => ((b : Int) + i, 1)) ++
      (List.range (c.N - 1)).map (fun (i : Nat) => ((c.N : Int) - 1 - i, 2))) j) := by
  intro n
  induction n with
  | zero =>
    intro k b j hb h1 hk
    obtain ⟨k, rfl⟩ : ∃ k', k = k' + 1 := ⟨k - 1, by omega⟩
    rw [bonds, if_pos (by omega)]
    have : Sweeps.next c.N 2 1 ((b : Int), 1) = ((b : Int), 2) := by
      simp only [Sweeps.next, if_pos]
      rw [if_pos (by omega)]
      simp
    rw [this]
    have := bonds_back c sw (b - 1) k (body c sw b 1 j) (by omega)
    rw [show ((b - 1 : Nat) : Int) + 1 = b by omega] at this
    rw [this]
    simp only [zero_add, List.range_one, List.map_cons, List.map_nil, List.singleton_append, after, List.foldl_cons, Nat.cast_zero, add_zero]
    rw [show b - 1 + 1 = c.N - 1 by omega, show (c.N : Int) - 1 = b by omega]
  | succ n ih =>
    intro k b j hb h1 hk
    obtain ⟨k, rfl⟩ : ∃ k', k = k' + 1 := ⟨k - 1, by omega⟩
    rw [bonds, if_pos (by omega)]
    have : Sweeps.next c.N 2 1 ((b : Int), 1) = (((b + 1 : Nat) : Int), 1) := by
      simp only [Sweeps.next, if_pos]
      rw [if_neg (by omega)]
      push_cast
      rfl
    have hl : (List.range (n + 1 + 1)).map (fun (i : Nat) => ((b : Int) + i, (1 : Int))) =
        ((b : Int), 1) :: (List.range (n + 1)).map fun (i : Nat) => (((b + 1 : Nat) : Int) + i, 1) := by
      rw [List.range_succ_eq_map, List.map_cons, List.map_map]
      refine List.cons_eq_cons.2 ⟨by simp, List.map_congr_left fun i _ => ?_⟩
      simp only [Function.comp]
      push_cast
      congr 1
      ring
    rw [this, ih k (b + 1) _ (by omega) (by omega) (by omega), hl]
    rfl

theorem bonds_spec (c : Calc) (sw : Nat) (hN : 2 ≤ c.N) {k : Nat} (hk : 2 * c.N ≤ k) (j : Job) : bonds c sw k 1 1 j = some (after c sw (order c.N) j) := by
  have := bonds_forth c sw hN (c.N - 2) k 1 j (by omega) le_rfl (by omega)
  rw [show c.N - 2 + 1 = c.N - 1 by omega] at this
  rw [show ((1 : Nat) : Int) = 1 from rfl] at this
  rw [this, order]
  congr 3
  refine List.map_congr_left fun i _ => ?_
  rw [add_comm]

/-- The order ends with bond 1 of the second half. -/
theorem order_split {N : Nat} (hN : 2 ≤ N) : ∃ l, order N = l ++ [(1, 2)] ∧ (1, 2) ∉ l ∧ ∀ p : Int × Int, p ∈ order N ↔ 1 ≤ p.1 ∧ p.1 < N ∧ (p.2 = 1 ∨ p.2 = 2) := by
  refine ⟨(List.range (N - 1)).map (fun (i : Nat) => ((i : Int) + 1, 1)) ++ (List.range (N - 2)).map (fun (i : Nat) => ((N : Int) - 1 - i, 2)), ?_, ?_, ?_⟩
  · rw [order, List.append_assoc]
    congr 1
    rw [show N - 1 = N - 2 + 1 by omega, List.range_succ, List.map_append]
    congr 1
    simp only [List.map_cons, List.map_nil]
    congr 2
    omega
  · simp only [List.mem_append, List.mem_map, List.mem_range, Prod.mk.injEq, not_or, not_exists, not_and]
    exact ⟨fun i _ _ => by omega, fun i h h' => by omega⟩
  · rintro ⟨b, ha⟩
    simp only [order, List.mem_append, List.mem_map, List.mem_range, Prod.mk.injEq]
    constructor
    · rintro (⟨i, h, rfl, rfl⟩ | ⟨i, h, rfl, rfl⟩) <;> omega
    · rintro ⟨h1, h2, rfl | rfl⟩
      · exact Or.inl ⟨(b - 1).toNat, by omega, by omega, rfl⟩
      · exact Or.inr ⟨((N : Int) - 1 - b).toNat, by omega, by omega, rfl⟩

/-- What does not change while bonds are optimized. -/
structure Same (o o' : Obs) : Prop where
  ge : o'.ge = o.ge
  gs : o'.gs = o.gs
  printeigs : o'.printeigs = o.printeigs
  done : o'.done = o.done
  lastE : o'.lastE = o.lastE
  lastS : o'.lastS = o.lastS

theorem Same.refl (o : Obs) : Same o o := ⟨rfl, rfl, rfl, rfl, rfl, rfl⟩

theorem Same.trans {o o' o'' : Obs} (h : Same o o') (h' : Same o' o'') : Same o o'' :=
  ⟨h'.ge.trans h.ge, h'.gs.trans h.gs, h'.printeigs.trans h.printeigs, h'.done.trans h.done, h'.lastE.trans h.lastE, h'.lastS.trans h.lastS⟩

theorem body_same (c : Calc) (sw : Nat) (b ha : Int) (j : Job) : Same j.obs (body c sw b ha j).obs := by
  simp only [body, measure]
  split_ifs <;> exact ⟨rfl, rfl, rfl, rfl, rfl, rfl⟩

theorem body_S (c : Calc) (sw : Nat) (b ha : Int) (j : Job) : (body c sw b ha j).obs.S =
    if c.silent = false ∧ j.obs.printeigs = true ∧ b = ((c.N / 2 : Nat) : Int) ∧ ha = 2 then some (entropy (c.data sw b ha).spec.eigs) else j.obs.S := by
  simp only [body, measure]
  cases c.silent <;> cases j.obs.printeigs <;> simp <;> split_ifs <;> simp_all

theorem after_same (c : Calc) (sw : Nat) : ∀ (l : List (Int × Int)) (j : Job), Same j.obs (after c sw l j).obs := by
  intro l
  induction l with
  | nil => intro j; exact .refl _
  | cons p l ih => intro j; exact (body_same c sw p.1 p.2 j).trans (ih _)

theorem after_S (c : Calc) (sw : Nat) : ∀ (l : List (Int × Int)) (j : Job), (after c sw l j).obs.S =
    if c.silent = false ∧ j.obs.printeigs = true ∧ (((c.N / 2 : Nat) : Int), (2 : Int)) ∈ l then some (entropy (c.data sw ((c.N / 2 : Nat) : Int) 2).spec.eigs) else j.obs.S := by
  intro l
  induction l with
  | nil => intro j; simp [after]
  | cons p l ih =>
    intro j
    have hs := (body_same c sw p.1 p.2 j).printeigs
    rw [show after c sw (p :: l) j = after c sw l (body c sw p.1 p.2 j) from rfl, ih, hs, body_S]
    obtain ⟨b, ha⟩ := p
    by_cases h1 : c.silent = false ∧ j.obs.printeigs = true
    · by_cases h2 : (((c.N / 2 : Nat) : Int), (2 : Int)) ∈ l
      · rw [if_pos ⟨h1.1, h1.2, h2⟩, if_pos ⟨h1.1, h1.2, List.mem_cons_of_mem _ h2⟩]
      · rw [if_neg fun h => h2 h.2.2]
        by_cases h3 : b = ((c.N / 2 : Nat) : Int) ∧ ha = 2
        · rw [if_pos ⟨h1.1, h1.2, h3⟩, if_pos ⟨h1.1, h1.2, by rw [h3.1, h3.2]; exact List.mem_cons_self⟩, h3.1, h3.2]
        · rw [if_neg fun h => h3 h.2.2, if_neg]
          rintro ⟨_, _, h⟩
          rcases List.mem_cons.1 h with h | h
          · exact h3 ⟨(congrArg Prod.fst h).symm, (congrArg Prod.snd h).symm⟩
          · exact h2 h
    · rw [if_neg fun h => h1 ⟨h.1, h.2.1⟩, if_neg fun h => h1 ⟨h.1, h.2.1⟩, if_neg fun h => h1 ⟨h.1, h.2.1⟩]

theorem after_append (c : Calc) (sw : Nat) (l l' : List (Int × Int)) (j : Job) : after c sw (l ++ l') j = after c sw l' (after c sw l j) := by
  unfold after
  rw [List.foldl_append]

/-- A number that is the greatest of `x` and the values of a list. -/
def Greatest {α β : Type*} [LinearOrder α] (x : α) (l : List β) (f : β → α) (m : α) : Prop := x ≤ m ∧ (∀ p ∈ l, f p ≤ m) ∧ (m = x ∨ ∃ p ∈ l, m = f p)

theorem Greatest.snoc {α β : Type*} [LinearOrder α] {x : α} {l : List β} {f : β → α} {m : α} (h : Greatest x l f m) (p : β) :
    Greatest x (l ++ [p]) f (max m (f p)) := by
  refine ⟨h.1.trans (le_max_left _ _), fun q hq => ?_, ?_⟩
  · rcases List.mem_append.1 hq with hq | hq
    · exact (h.2.1 q hq).trans (le_max_left _ _)
    · rw [List.mem_singleton] at hq
      subst hq
      exact le_max_right _ _
  · rcases max_choice m (f p) with e | e <;> rw [e]
    · rcases h.2.2 with e | ⟨q, hq, e⟩
      · exact Or.inl e
      · exact Or.inr ⟨q, List.mem_append_left _ hq, e⟩
    · exact Or.inr ⟨p, by simp, rfl⟩

theorem body_quiet (c : Calc) (sw : Nat) (b ha : Int) (j : Job) (h : c.silent = true ∨ ¬ (b = 1 ∧ ha = 2)) :
    (body c sw b ha j).obs.maxEigs = max j.obs.maxEigs (c.data sw b ha).spec.eigs.length ∧ (body c sw b ha j).obs.maxTe = max j.obs.maxTe (c.data sw b ha).spec.truncerr ∧
      (body c sw b ha j).out = j.out := by
  simp only [body, measure]
  rcases h with h | h
  · rw [h]; simp
  · rw [if_neg h]
    cases c.silent <;> cases j.obs.printeigs <;> simp <;> split_ifs <;> simp

theorem after_quiet (c : Calc) (sw : Nat) (l : List (Int × Int)) (h : c.silent = true ∨ (1, 2) ∉ l) (j : Job) :
    Greatest j.obs.maxEigs l (fun p => ((c.data sw p.1 p.2).spec.eigs.length : Int)) (after c sw l j).obs.maxEigs ∧
    Greatest j.obs.maxTe l (fun p => (c.data sw p.1 p.2).spec.truncerr) (after c sw l j).obs.maxTe ∧ (after c sw l j).out = j.out := by
  induction l using List.reverseRecOn with
  | nil => exact ⟨⟨le_rfl, by simp, Or.inl rfl⟩, ⟨le_rfl, by simp, Or.inl rfl⟩, rfl⟩
  | append_singleton l p ih =>
    obtain ⟨i1, i2, i3⟩ := ih (h.imp id fun h h' => h (List.mem_append_left _ h'))
    obtain ⟨b1, b2, b3⟩ := body_quiet c sw p.1 p.2 (after c sw l j) (h.imp id fun h h' => h (by
      rw [List.mem_append, List.mem_singleton]; exact Or.inr (Prod.ext h'.1.symm h'.2.symm)))
    rw [after_append, show after c sw [p] (after c sw l j) = body c sw p.1 p.2 (after c sw l j) from rfl, b1, b2, b3]
    exact ⟨i1.snoc p, i2.snoc p, i3⟩

/-- What is to be reported of a sweep: the largest number of states at any bond, the largest truncation error and the energy found last. -/
structure IsReport (c : Calc) (s : Nat) (r : Report) : Prop where
  sweep : r.sweep = s
  energy : r.energy = (c.data s 1 2).energy
  dim_ge : ∀ b ha : Int, 1 ≤ b → b < c.N → ha = 1 ∨ ha = 2 → ((c.data s b ha).spec.eigs.length : Int) ≤ r.dim
  dim_eq : r.dim = 1 ∨ ∃ b ha : Int, 1 ≤ b ∧ b < c.N ∧ (ha = 1 ∨ ha = 2) ∧ r.dim = (c.data s b ha).spec.eigs.length
  te_ge : ∀ b ha : Int, 1 ≤ b → b < c.N → ha = 1 ∨ ha = 2 → (c.data s b ha).spec.truncerr ≤ r.te
  te_eq : r.te = 0 ∨ ∃ b ha : Int, 1 ≤ b ∧ b < c.N ∧ (ha = 1 ∨ ha = 2) ∧ r.te = (c.data s b ha).spec.truncerr

/-- The observer is ready for the next sweep. -/
def Ready (o : Obs) : Prop := o.maxEigs = -1 ∧ o.maxTe = -1

theorem sweep_report (c : Calc) (sw : Nat) (hN : 2 ≤ c.N) (hs : c.silent = false) (j : Job) (hj : Ready j.obs) :
    Ready (after c sw (order c.N) j).obs ∧ ∃ r, IsReport c sw r ∧ (after c sw (order c.N) j).out = j.out ++ [r] := by
  obtain ⟨l, e, hl, hm⟩ := order_split hN
  rw [e] at hm ⊢
  obtain ⟨i1, i2, i3⟩ := after_quiet c sw l (Or.inr hl) j
  rw [after_append]
  set k := after c sw l j
  obtain ⟨g1, g2⟩ := hj
  rw [g1] at i1
  rw [g2] at i2
  have j1 := i1.snoc (1, 2)
  have j2 := i2.snoc (1, 2)
  have eo : (after c sw [(1, 2)] k).out = k.out ++ [⟨sw, if max k.obs.maxEigs ((c.data sw 1 2).spec.eigs.length : Int) > 1 then max k.obs.maxEigs ((c.data sw 1 2).spec.eigs.length : Int) else 1,
      if max k.obs.maxTe (c.data sw 1 2).spec.truncerr > 0 then max k.obs.maxTe (c.data sw 1 2).spec.truncerr else 0, (c.data sw 1 2).energy⟩] := by
    simp only [after, List.foldl_cons, List.foldl_nil, body, measure, hs]
    cases k.obs.printeigs <;> simp <;> split_ifs <;> simp
  have er : Ready (after c sw [(1, 2)] k).obs := by
    simp only [after, List.foldl_cons, List.foldl_nil, body, measure, hs, Ready]
    cases k.obs.printeigs <;> simp
  refine ⟨er, _, ⟨rfl, rfl, ?_, ?_, ?_, ?_⟩, by rw [eo, i3]⟩
  · intro b ha h1 h2 h3
    have := j1.2.1 (b, ha) ((hm (b, ha)).2 ⟨h1, h2, h3⟩)
    dsimp only at this ⊢
    split_ifs <;> omega
  · dsimp only
    split_ifs with h
    · rcases j1.2.2 with e | ⟨p, hp, e⟩
      · dsimp only at e; omega
      · obtain ⟨a1, a2, a3⟩ := (hm p).1 hp
        exact Or.inr ⟨p.1, p.2, a1, a2, a3, e⟩
    · exact Or.inl rfl
  · intro b ha h1 h2 h3
    have := j2.2.1 (b, ha) ((hm (b, ha)).2 ⟨h1, h2, h3⟩)
    dsimp only at this ⊢
    split_ifs with h
    · exact this
    · exact this.trans (not_lt.1 h)
  · dsimp only
    split_ifs with h
    · rcases j2.2.2 with e | ⟨p, hp, e⟩
      · dsimp only at e; rw [e] at h; norm_num at h
      · obtain ⟨a1, a2, a3⟩ := (hm p).1 hp
        exact Or.inr ⟨p.1, p.2, a1, a2, a3, e⟩
    · exact Or.inl rfl

theorem after_energy (c : Calc) (sw : Nat) (hN : 2 ≤ c.N) (j : Job) : (after c sw (order c.N) j).energy = some (c.data sw 1 2).energy := by
  obtain ⟨l, e, _, _⟩ := order_split hN
  rw [e, after_append]
  rfl

theorem order_S {c : Calc} (sw : Nat) (hN : 2 ≤ c.N) (hs : c.silent = false) {j : Job} (hp : j.obs.printeigs = true) :
    (after c sw (order c.N) j).obs.S = some (entropy (c.data sw ((c.N / 2 : Nat) : Int) 2).spec.eigs) := by
  obtain ⟨l, _, _, hm⟩ := order_split hN
  rw [after_S, if_pos ⟨hs, hp, (hm _).2 ⟨by dsimp only; omega, by dsimp only; omega, Or.inr rfl⟩⟩]

/-! ## When the calculation stops -/

/-- The energy found last in a sweep. -/
def E (c : Calc) (s : Nat) : ℝ := (c.data s 1 2).energy

/-- The entropy at the bond in the middle. -/
def S (c : Calc) (s : Nat) : ℝ := entropy (c.data s ((c.N / 2 : Nat) : Int) 2).spec.eigs

/-- The goals that are set (positive) are met by sweep `s`. -/
def Met (c : Calc) (ge gs : ℝ) (s : Nat) : Prop :=
  s % 2 = 0 ∧ ((0 < ge ∧ gs < 0 ∧ |E c s - E c (s - 1)| < ge) ∨ (ge < 0 ∧ 0 < gs ∧ |S c s - S c (s - 1)| < gs) ∨
    (0 < ge ∧ 0 < gs ∧ |E c s - E c (s - 1)| < ge ∧ |S c s - S c (s - 1)| < gs))

/-- One of the files is there after sweep `s`, if none has been removed. -/
def Found (c : Calc) (f : Files) (s : Nat) : Prop :=
  f.stop = true ∨ f.stopAll = true ∨ ∃ i, 1 ≤ i ∧ i ≤ s ∧ ((c.created i).stop = true ∨ (c.created i).stopAll = true)

/-- What the observer remembers after sweep `s` that did not stop the calculation. -/
structure Mem (c : Calc) (ge gs : ℝ) (s : Nat) (o : Obs) : Prop where
  goalE : o.ge = ge
  goalS : o.gs = gs
  lastE : 1 ≤ s → o.lastE = E c s
  lastS : 1 ≤ s → 0 < gs → o.lastS = some (S c s)
  printeigs : 0 < gs → o.printeigs = true

theorem check_spec {c : Calc} {ge gs : ℝ} {s : Nat} {o : Obs} (h : Mem c ge gs s o) (hS : 0 < gs → o.S = some (S c (s + 1))) (f : Files) :
    (Met c ge gs (s + 1) ∧ ∃ o', checkDone (s + 1) (E c (s + 1)) o f = .ok (true, o', f) ∧ o'.done = o.done ∧ o'.maxEigs = o.maxEigs ∧
      o'.maxTe = o.maxTe ∧ o'.ge = ge ∧ o'.gs = gs ∧ o'.printeigs = o.printeigs) ∨
    (¬ Met c ge gs (s + 1) ∧ ∃ o', checkDone (s + 1) (E c (s + 1)) o f = .ok (checkFiles (E c (s + 1)) o' f) ∧ o'.done = o.done ∧ o'.maxEigs = o.maxEigs ∧
      o'.maxTe = o.maxTe ∧ o'.ge = ge ∧ o'.gs = gs ∧ o'.S = o.S ∧ o'.printeigs = o.printeigs) := by
  obtain ⟨h1, h2, h3, h4, h5⟩ := h
  -- the observer after the first statement
  set o1 : Obs := if s + 1 = 1 then { o with lastE := 1000, lastS := some 1000 } else o with ho1
  have e1 : o1.ge = ge ∧ o1.gs = gs ∧ o1.S = o.S ∧ o1.done = o.done ∧ o1.maxEigs = o.maxEigs ∧ o1.maxTe = o.maxTe ∧ o1.printeigs = o.printeigs := by
    rw [ho1]; split_ifs <;> exact ⟨h1, h2, rfl, rfl, rfl, rfl, rfl⟩
  obtain ⟨q1, q2, q3, q4, q5, q6, q7⟩ := e1
  have hev : (s + 1) % 2 = 0 → o1.lastE = E c s ∧ (0 < gs → o1.lastS = some (S c s)) := by
    intro hs
    have : 1 ≤ s := by omega
    rw [ho1, if_neg (by omega)]
    exact ⟨h3 this, h4 this⟩
  have hc : checkDone (s + 1) (E c (s + 1)) o f = (if o1.ge > 0 ∧ o1.gs < 0 ∧ (s + 1) % 2 = 0 ∧ |E c (s + 1) - o1.lastE| < o1.ge then .ok (true, { o1 with lastE := 1000 }, f)
      else (if o1.ge < 0 ∧ o1.gs > 0 ∧ (s + 1) % 2 = 0 then (diff o1.S o1.lastS).map fun dS => decide (dS < o1.gs) else .ok false).bind fun met =>
      if met then .ok (true, { o1 with lastS := some 1000 }, f)
      else (if o1.ge > 0 ∧ o1.gs > 0 ∧ (s + 1) % 2 = 0 then (diff o1.S o1.lastS).map fun dS => decide (|E c (s + 1) - o1.lastE| < o1.ge ∧ dS < o1.gs) else .ok false).bind fun met =>
      if met then .ok (true, { o1 with lastE := 1000, lastS := some 1000 }, f)
      else .ok (checkFiles (E c (s + 1)) o1 f)) := rfl
  rw [hc, q1, q2, q3]
  have hno : ¬ Met c ge gs (s + 1) → ∃ o', (Res.ok (checkFiles (E c (s + 1)) o1 f) : Res _) = .ok (checkFiles (E c (s + 1)) o' f) ∧ o'.done = o.done ∧ o'.maxEigs = o.maxEigs ∧
      o'.maxTe = o.maxTe ∧ o'.ge = ge ∧ o'.gs = gs ∧ o'.S = o.S ∧ o'.printeigs = o.printeigs := fun _ => ⟨o1, rfl, q4, q5, q6, q1, q2, q3, q7⟩
  by_cases hs : (s + 1) % 2 = 0
  · obtain ⟨l1, l2⟩ := hev hs
    rw [l1]
    by_cases c1 : ge > 0 ∧ gs < 0 ∧ |E c (s + 1) - E c s| < ge
    · rw [if_pos ⟨c1.1, c1.2.1, hs, c1.2.2⟩]
      exact Or.inl ⟨⟨hs, Or.inl c1⟩, _, rfl, q4, q5, q6, rfl, rfl, q7⟩
    · rw [if_neg fun h => c1 ⟨h.1, h.2.1, h.2.2.2⟩]
      by_cases c2 : ge < 0 ∧ gs > 0
      · rw [if_pos ⟨c2.1, c2.2, hs⟩, hS c2.2, l2 c2.2]
        simp only [diff, Res.map, Res.bind_ok]
        have n1 : ¬ ge > 0 := not_lt.2 c2.1.le
        by_cases c3 : |S c (s + 1) - S c s| < gs
        · rw [if_pos (decide_eq_true c3)]
          exact Or.inl ⟨⟨hs, Or.inr (Or.inl ⟨c2.1, c2.2, c3⟩)⟩, _, rfl, q4, q5, q6, rfl, rfl, q7⟩
        · rw [if_neg (by simpa using c3), if_neg fun h => n1 h.1]
          simp only [Res.bind_ok, Bool.false_eq_true, if_false]
          have nm : ¬ Met c ge gs (s + 1) := by
            rintro ⟨_, h | h | h⟩
            · exact n1 h.1
            · exact c3 h.2.2
            · exact n1 h.1
          exact Or.inr ⟨nm, by rw [← hS c2.2]; exact hno nm⟩
      · rw [if_neg fun h => c2 ⟨h.1, h.2.1⟩]
        simp only [Res.bind_ok, Bool.false_eq_true, if_false]
        by_cases c4 : ge > 0 ∧ gs > 0
        · rw [if_pos ⟨c4.1, c4.2, hs⟩, hS c4.2, l2 c4.2]
          simp only [diff, Res.map, Res.bind_ok]
          by_cases c3 : |E c (s + 1) - E c s| < ge ∧ |S c (s + 1) - S c s| < gs
          · rw [if_pos (decide_eq_true c3)]
            exact Or.inl ⟨⟨hs, Or.inr (Or.inr ⟨c4.1, c4.2, c3.1, c3.2⟩)⟩, _, rfl, q4, q5, q6, rfl, rfl, q7⟩
          · rw [if_neg (by simpa using c3)]
            have nm : ¬ Met c ge gs (s + 1) := by
              rintro ⟨_, h | h | h⟩
              · exact c1 h
              · exact c2 ⟨h.1, h.2.1⟩
              · exact c3 h.2.2
            exact Or.inr ⟨nm, by rw [← hS c4.2]; exact hno nm⟩
        · rw [if_neg fun h => c4 ⟨h.1, h.2.1⟩]
          simp only [Res.bind_ok, Bool.false_eq_true, if_false]
          have nm : ¬ Met c ge gs (s + 1) := by
            rintro ⟨_, h | h | h⟩
            · exact c1 h
            · exact c2 ⟨h.1, h.2.1⟩
            · exact c4 ⟨h.1, h.2.1⟩
          exact Or.inr ⟨nm, hno nm⟩
  · have nm : ¬ Met c ge gs (s + 1) := fun h => hs h.1
    rw [if_neg fun h => hs h.2.2.1, if_neg fun h => hs h.2.2]
    simp only [Res.bind_ok, Bool.false_eq_true, if_false]
    rw [if_neg fun h => hs h.2.2]
    simp only [Res.bind_ok, Bool.false_eq_true, if_false]
    exact Or.inr ⟨nm, hno nm⟩

end Verif.Observer
