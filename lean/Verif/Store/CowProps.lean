import Verif.Store.Cow

/-!
# Copies of tensors are independent (C29)
-/

namespace Verif.Cow

open Verif

section
variable {V R T : Type*}

/-- The contents of an object. -/
def St.val (s : St V) (a : Nat) : Option V := (s.heap a).map (·.1)

/-- The reference counts are the numbers of pointers, `ex` the pointers which no tensor holds. -/
structure Inv (s : St V) (ex : List Nat) : Prop where
  cnt : ∀ a v c, s.heap a = some (v, c) → c = s.hs.count (some a) + ex.count a ∧ 0 < c
  dead : ∀ a, s.heap a = none → s.hs.count (some a) + ex.count a = 0
  fresh : ∀ a, s.next ≤ a → s.heap a = none

theorem Inv.live {s : St V} {ex : List Nat} (h : Inv s ex) {a : Nat} (ha : 0 < s.hs.count (some a) + ex.count a) :
    ∃ v, s.heap a = some (v, s.hs.count (some a) + ex.count a) := by
  cases e : s.heap a with
  | none => have := h.dead a e; omega
  | some x =>
    obtain ⟨v, c⟩ := x
    exact ⟨v, by rw [(h.cnt a v c e).1]⟩

theorem Inv.of_val {s : St V} {ex : List Nat} (h : Inv s ex) {a : Nat} {v : V} (ha : s.val a = some v) :
    s.heap a = some (v, s.hs.count (some a) + ex.count a) := by
  unfold St.val at ha
  cases e : s.heap a with
  | none => rw [e] at ha; cases ha
  | some x =>
    obtain ⟨w, c⟩ := x
    rw [e] at ha
    cases ha
    rw [(h.cnt a _ c e).1]

theorem retain_spec {s : St V} {ex : List Nat} (h : Inv s ex) {a : Nat} {v : V} (ha : s.val a = some v) :
    ∃ s', retain s (some a) = .ok s' ∧ Inv s' (a :: ex) ∧ s'.hs = s.hs ∧ s'.next = s.next ∧ ∀ b, s'.val b = s.val b := by
  have e := h.of_val ha
  refine ⟨{ s with heap := Function.update s.heap a (some (v, s.hs.count (some a) + ex.count a + 1)) }, by simp only [retain, e], ⟨?_, ?_, ?_⟩, rfl, rfl, ?_⟩
  · intro b w c hb
    dsimp only at hb ⊢
    by_cases hab : b = a
    · subst hab
      rw [Function.update_self] at hb
      cases hb
      simp
      omega
    · rw [Function.update_of_ne hab] at hb
      have := h.cnt b w c hb
      rw [List.count_cons_of_ne (Ne.symm hab)]
      exact this
  · intro b hb
    dsimp only at hb ⊢
    by_cases hab : b = a
    · subst hab
      rw [Function.update_self] at hb
      cases hb
    · rw [Function.update_of_ne hab] at hb
      rw [List.count_cons_of_ne (Ne.symm hab)]
      exact h.dead b hb
  · intro b hb
    have := h.fresh b hb
    have hab : b ≠ a := by rintro rfl; rw [e] at this; cases this
    dsimp only
    rw [Function.update_of_ne hab]
    exact this
  · intro b
    unfold St.val
    dsimp only
    by_cases hab : b = a
    · subst hab
      rw [Function.update_self, e]
      rfl
    · rw [Function.update_of_ne hab]

theorem release_spec {s : St V} {ex : List Nat} {a : Nat} (h : Inv s (a :: ex)) :
    ∃ s', release s (some a) = .ok s' ∧ Inv s' ex ∧ s'.hs = s.hs ∧ s'.next = s.next ∧
      ∀ b, 0 < s.hs.count (some b) + ex.count b → s'.val b = s.val b := by
  obtain ⟨v, e⟩ := h.live (a := a) (by rw [List.count_cons_self]; omega)
  rw [List.count_cons_self] at e
  refine ⟨{ s with heap := Function.update s.heap a (if s.hs.count (some a) + (ex.count a + 1) ≤ 1 then none
    else some (v, s.hs.count (some a) + (ex.count a + 1) - 1)) }, by simp only [release, e], ⟨?_, ?_, ?_⟩, rfl, rfl, ?_⟩
  · intro b w c hb
    dsimp only at hb ⊢
    by_cases hab : b = a
    · subst hab
      rw [Function.update_self] at hb
      split at hb
      · cases hb
      · cases hb
        omega
    · rw [Function.update_of_ne hab] at hb
      have := h.cnt b w c hb
      rw [List.count_cons_of_ne (Ne.symm hab)] at this
      exact this
  · intro b hb
    dsimp only at hb ⊢
    by_cases hab : b = a
    · subst hab
      rw [Function.update_self] at hb
      split at hb
      · omega
      · cases hb
    · rw [Function.update_of_ne hab] at hb
      have := h.dead b hb
      rw [List.count_cons_of_ne (Ne.symm hab)] at this
      exact this
  · intro b hb
    have := h.fresh b hb
    have hab : b ≠ a := by rintro rfl; rw [e] at this; cases this
    dsimp only
    rw [Function.update_of_ne hab]
    exact this
  · intro b hb
    unfold St.val
    dsimp only
    by_cases hab : b = a
    · subst hab
      rw [Function.update_self, e, if_neg (by omega)]
      rfl
    · rw [Function.update_of_ne hab]

theorem release_opt {s : St V} {ex : List Nat} {p : Option Nat} (h : Inv s (p.toList ++ ex)) :
    ∃ s', release s p = .ok s' ∧ Inv s' ex ∧ s'.hs = s.hs ∧ s'.next = s.next ∧
      ∀ b, 0 < s.hs.count (some b) + ex.count b → s'.val b = s.val b := by
  cases p with
  | none => exact ⟨s, rfl, by simpa using h, rfl, rfl, fun _ _ => rfl⟩
  | some a => exact release_spec (by simpa using h)

theorem alloc_spec {s : St V} {ex : List Nat} (h : Inv s ex) (v : V) :
    Inv (alloc s v).2 ((alloc s v).1 :: ex) ∧ (alloc s v).2.hs = s.hs ∧ (alloc s v).2.val (alloc s v).1 = some v ∧
      (∀ b, b ≠ (alloc s v).1 → (alloc s v).2.val b = s.val b) ∧ s.hs.count (some (alloc s v).1) = 0 ∧ ex.count (alloc s v).1 = 0 := by
  have e := h.fresh s.next (Nat.le_refl _)
  have e0 := h.dead _ e
  unfold alloc
  refine ⟨⟨?_, ?_, ?_⟩, rfl, ?_, ?_, by dsimp only; omega, by dsimp only; omega⟩
  · intro b w c hb
    dsimp only at hb ⊢
    by_cases hab : b = s.next
    · subst hab
      rw [Function.update_self] at hb
      cases hb
      simp
      omega
    · rw [Function.update_of_ne hab] at hb
      rw [List.count_cons_of_ne (Ne.symm hab)]
      exact h.cnt b w c hb
  · intro b hb
    dsimp only at hb ⊢
    by_cases hab : b = s.next
    · subst hab
      rw [Function.update_self] at hb
      cases hb
    · rw [Function.update_of_ne hab] at hb
      rw [List.count_cons_of_ne (Ne.symm hab)]
      exact h.dead b hb
  · intro b hb
    dsimp only at hb ⊢
    rw [Function.update_of_ne (by omega)]
    exact h.fresh b (by omega)
  · simp [St.val]
  · intro b hb
    unfold St.val
    dsimp only at hb ⊢
    rw [Function.update_of_ne hb]

theorem count_set' {l : List (Option Nat)} {h : Nat} {old : Option Nat} (ho : l[h]? = some old) (p : Option Nat) (a : Nat) :
    (l.set h p).count (some a) + old.toList.count a = l.count (some a) + p.toList.count a := by
  have hl : h < l.length := by
    by_contra hc
    rw [List.getElem?_eq_none (by omega)] at ho
    cases ho
  rw [List.getElem?_eq_getElem hl] at ho
  have ho' : l[h] = old := by simpa using ho
  rw [List.count_set hl, ho']
  have hpos : old = some a → 0 < l.count (some a) := fun e => by
    rw [List.count_pos_iff, ← e, ← ho']
    exact List.getElem_mem hl
  have hc : ∀ q : Option Nat, q.toList.count a = if q == some a then 1 else 0 := by
    intro q
    cases q with
    | none => simp
    | some b =>
      by_cases hb : b = a
      · simp [hb]
      · simp [hb]
  rw [hc, hc]
  by_cases h1 : old = some a
  · have := hpos h1
    simp only [h1, beq_self_eq_true, if_true]
    omega
  · have : (old == some a) = false := by simpa using h1
    simp only [this, Bool.false_eq_true, if_false]
    omega

theorem moveInto_spec {s : St V} {ex : List Nat} {p old : Option Nat} {h : Nat} (hi : Inv s (p.toList ++ ex)) (ho : s.hs[h]? = some old) :
    ∃ s', moveInto s h p = .ok s' ∧ Inv s' ex ∧ s'.hs = s.hs.set h p ∧ s'.next = s.next ∧
      ∀ b, 0 < (s.hs.set h p).count (some b) + ex.count b → s'.val b = s.val b := by
  have hi' : Inv { s with hs := s.hs.set h p } (old.toList ++ ex) := by
    refine ⟨fun a v c ha => ?_, fun a ha => ?_, hi.fresh⟩
    · have := hi.cnt a v c ha
      have h2 := count_set' ho p a
      rw [List.count_append] at this ⊢
      dsimp only
      omega
    · have := hi.dead a ha
      have h2 := count_set' ho p a
      rw [List.count_append] at this ⊢
      dsimp only
      omega
  obtain ⟨s', e1, e2, e3, e4, e5⟩ := release_opt hi'
  refine ⟨s', ?_, e2, e3, e4, e5⟩
  unfold moveInto
  rw [ho]
  exact e1

theorem copyInto_spec {s : St V} {ex : List Nat} {p old : Option Nat} {h : Nat} (hi : Inv s ex) (hp : ∀ a, p = some a → ∃ v, s.val a = some v)
    (ho : s.hs[h]? = some old) :
    ∃ s', copyInto s h p = .ok s' ∧ Inv s' ex ∧ s'.hs = s.hs.set h p ∧
      ∀ b, 0 < (s.hs.set h p).count (some b) + ex.count b → s'.val b = s.val b := by
  unfold copyInto
  cases p with
  | none =>
    obtain ⟨s', e1, e2, e3, _, e5⟩ := moveInto_spec (p := none) (by simpa using hi) ho
    exact ⟨s', by simpa [retain, Res.bind_ok] using e1, e2, e3, e5⟩
  | some a =>
    obtain ⟨v, hv⟩ := hp a rfl
    obtain ⟨s1, e1, e2, e3, _, e5⟩ := retain_spec hi hv
    obtain ⟨s2, f1, f2, f3, _, f5⟩ := moveInto_spec (s := s1) (p := some a) (ex := ex) (by simpa using e2) (by rw [e3]; exact ho)
    refine ⟨s2, by rw [e1, Res.bind_ok]; exact f1, f2, by rw [f3, e3], fun b hb => ?_⟩
    rw [f5 b (by rw [e3]; exact hb), e5]

theorem poke_spec {s : St V} {ex : List Nat} (h : Inv s ex) {a : Nat} {v : V} (ha : s.val a = some v) (w : V) :
    ∃ s', poke s a w = .ok s' ∧ Inv s' ex ∧ s'.hs = s.hs ∧ s'.val a = some w ∧ ∀ b, b ≠ a → s'.val b = s.val b := by
  have e := h.of_val ha
  refine ⟨{ s with heap := Function.update s.heap a (some (w, s.hs.count (some a) + ex.count a)) }, by simp only [poke, e], ⟨?_, ?_, ?_⟩, rfl, ?_, ?_⟩
  · intro b x c hb
    dsimp only at hb ⊢
    by_cases hab : b = a
    · subst hab
      rw [Function.update_self] at hb
      cases hb
      exact h.cnt _ _ _ e
    · rw [Function.update_of_ne hab] at hb
      exact h.cnt b x c hb
  · intro b hb
    dsimp only at hb ⊢
    by_cases hab : b = a
    · subst hab
      rw [Function.update_self] at hb
      cases hb
    · rw [Function.update_of_ne hab] at hb
      exact h.dead b hb
  · intro b hb
    have := h.fresh b hb
    have hab : b ≠ a := by rintro rfl; rw [e] at this; cases this
    dsimp only
    rw [Function.update_of_ne hab]
    exact this
  · simp [St.val]
  · intro b hab
    unfold St.val
    dsimp only
    rw [Function.update_of_ne hab]

theorem peek_ok {s : St V} {a : Nat} {v : V} (h : s.val a = some v) : peek s a = .ok v := by
  unfold St.val at h
  unfold peek
  cases e : s.heap a with
  | none => rw [e] at h; cases h
  | some x => rw [e] at h; cases h; rfl

/-- State of a task that runs on tensor `h` (and `g`), started with the storages `s0`. `m`, `n`: the values behind `M` and `N`. -/
structure FI (h : Nat) (s0 : St V) (d1 : Nat) (v1 : V) (d2 : Option Nat) (f : Frame) (s : St V) (b : Nat) (m n : Option V) : Prop where
  inv : Inv s f.nd.toList
  fd1 : f.d1 = d1
  fd2 : f.d2 = d2
  hs : s.hs = s0.hs.set h (some b)
  val : s.val b = some (m.getD v1)
  pm : f.pm = m.map fun _ => b
  /-- before `modifyData` -/
  m0 : m = none → b = d1
  /-- after it -/
  m1 : ∀ w, m = some w → s.hs.count (some b) = 1
  al : m.isSome → (s0.hs.count (some d1) = 1 ∧ b = d1) ∨ (s0.hs.count (some d1) ≠ 1 ∧ b ≠ d1 ∧ s.val d1 = some v1)
  others : ∀ k a, k ≠ h → s0.hs[k]? = some (some a) → s.val a = s0.val a
  nd : match f.nd, n with
    | none, none => True
    | some a, some w => s.val a = some w ∧ s.hs.count (some a) = 0
    | _, _ => False

theorem count_pos_of {l : List (Option Nat)} {k a : Nat} (h : l[k]? = some (some a)) : 0 < l.count (some a) := by
  rw [List.count_pos_iff]
  exact List.mem_of_getElem? h

theorem set_get {l : List (Option Nat)} {h : Nat} (p : Option Nat) {k : Nat} (hk : k ≠ h) : (l.set h p)[k]? = l[k]? := by
  rw [List.getElem?_set_ne (Ne.symm hk)]

/-- Two places with the same pointer. -/
theorem count_two {l : List (Option Nat)} {h k a : Nat} (hh : h < l.length) (hk : k ≠ h) (ha : l[k]? = some (some a)) :
    2 ≤ (l.set h (some a)).count (some a) := by
  have h1 : l[h]? = some l[h] := List.getElem?_eq_getElem hh
  have := count_set' (l := l.set h none) (h := h) (old := none) (by rw [List.getElem?_set_self hh]) (some a) a
  rw [List.set_set] at this
  have h2 : 0 < (l.set h none).count (some a) := count_pos_of (k := k) (by rw [set_get none hk]; exact ha)
  simp at this
  omega

variable {h : Nat} {s0 : St V} {d1 : Nat} {v1 : V} {d2 : Option Nat}

/-- Running the body of a task. The hypotheses: `h` has the storage `d1` with contents `v1`; `d2` is the storage `v2` of another tensor, or `d1` if the second tensor is the first. -/
theorem exec_spec (hh : s0.hs[h]? = some (some d1)) {v2 : Option V} {same : Bool}
    (h2 : match d2, v2 with
      | none, none => True
      | some a, some w => if same then a = d1 ∧ w = v1 else (∃ k, k ≠ h ∧ s0.hs[k]? = some (some a)) ∧ s0.val a = some w
      | _, _ => False) :
    ∀ (p : Prog V R) (f : Frame) (s : St V) (b : Nat) (m n m' n' : Option V) (act' : Act) (r : Option R),
      FI h s0 d1 v1 d2 f s b m n →
      p.eval (decide (s0.hs.count (some d1) = 1)) (decide (s0.hs.count (some d1) = 1) && same) v1 v2 m n f.act = some (m', n', act', r) →
      ∃ f' s' b', exec h p f s = .ok (f', s', r) ∧ f'.act = act' ∧ FI h s0 d1 v1 d2 f' s' b' m' n' := by
  have hlen : h < s0.hs.length := by
    by_contra hc
    rw [List.getElem?_eq_none (by omega)] at hh
    cases hh
  intro p
  induction p with
  | done r => intro f s b m n m' n' act' r' hF he; cases he; exact ⟨f, s, b, rfl, rfl, hF⟩
  | fail => intro f s b m n m' n' act' r' hF he; cases he; exact ⟨f, s, b, rfl, rfl, hF⟩
  | read1 k ih =>
    intro f s b m n m' n' act' r' hF he
    simp only [Prog.eval] at he
    simp only [exec, hF.fd1]
    have hv : s.val d1 = some (if decide (s0.hs.count (some d1) = 1) = true then m.getD v1 else v1) := by
      cases m with
      | none =>
        have := hF.val
        rw [hF.m0 rfl] at this
        simpa using this
      | some w =>
        rcases hF.al rfl with ⟨h1, h2⟩ | ⟨h1, h2, h3⟩
        · rw [if_pos (by simpa using h1), ← h2]
          exact hF.val
        · rw [if_neg (by simpa using h1)]
          exact h3
    rw [peek_ok hv, Res.bind_ok]
    exact ih _ f s b m n m' n' act' r' hF he
  | read2 k ih =>
    intro f s b m n m' n' act' r' hF he
    simp only [exec, hF.fd2]
    cases d2 with
    | none => cases v2 with
      | none => simp [Prog.eval] at he
      | some w => exact h2.elim
    | some a =>
      cases v2 with
      | none => exact h2.elim
      | some w =>
        simp only [Prog.eval] at he
        simp only at h2 ⊢
        have hv : s.val a = some (if (decide (s0.hs.count (some d1) = 1) && same) = true then m.getD w else w) := by
          cases same with
          | false =>
            simp only [Bool.false_eq_true, if_false] at h2
            obtain ⟨⟨k, h3, h4⟩, h5⟩ := h2
            rw [Bool.and_false, if_neg (by simp), hF.others k a h3 h4, h5]
          | true =>
            simp only [if_true] at h2
            obtain ⟨rfl, rfl⟩ := h2
            rw [Bool.and_true]
            cases m with
            | none =>
              have := hF.val
              rw [hF.m0 rfl] at this
              simpa using this
            | some x =>
              rcases hF.al rfl with ⟨h1, h2⟩ | ⟨h1, h2, h3⟩
              · rw [if_pos (by simpa using h1), ← h2]
                exact hF.val
              · rw [if_neg (by simpa using h1)]
                exact h3
        rw [peek_ok hv, Res.bind_ok]
        exact ih _ f s b m n m' n' act' r' hF he
  | modify k ih =>
    intro f s b m n m' n' act' r' hF he
    simp only [Prog.eval] at he
    simp only [exec]
    have hb : s.hs[h]? = some (some b) := by rw [hF.hs, List.getElem?_set_self hlen]
    have hnd : f.nd.toList.count b = 0 := by
      have := hF.nd
      cases e : f.nd with
      | none => simp
      | some a =>
        rw [e] at this
        cases n with
        | none => exact this.elim
        | some w =>
          have hne : a ≠ b := by
            rintro rfl
            have h1 := count_pos_of hb
            have h2 := this.2
            omega
          simp [hne]
    have hheap := hF.inv.of_val hF.val
    rw [hnd, Nat.add_zero] at hheap
    by_cases hc : s.hs.count (some b) = 1
    · -- the only pointer
      have hm : modifyData s h = .ok (b, s) := by
        simp only [modifyData, deref, hb, Res.bind_ok, hheap, hc, if_true]
      rw [hm, Res.bind_ok]
      refine ih _ s b (some (m.getD v1)) n m' n' act' r' ⟨hF.inv, hF.fd1, hF.fd2, hF.hs, by simpa using hF.val, rfl, by simp, fun _ _ => hc, fun _ => ?_, hF.others, hF.nd⟩ he
      cases m with
      | none =>
        have hbd := hF.m0 rfl
        left
        have : s.hs = s0.hs := by
          rw [hF.hs, hbd]
          apply List.ext_getElem?
          intro i
          by_cases hi : i = h
          · subst hi
            rw [List.getElem?_set_self hlen, hh]
          · rw [set_get _ hi]
        rw [← this, ← hbd]
        exact ⟨hc, rfl⟩
      | some w => exact hF.al rfl
    · -- a copy is made
      have hmn : m = none := by
        cases m with
        | none => rfl
        | some w => exact absurd (hF.m1 w rfl) hc
      subst hmn
      have hbd := hF.m0 rfl
      obtain ⟨a1, a2, a3, a4, a5, a6⟩ := alloc_spec hF.inv v1
      set p := alloc s v1 with hp
      have hb2 : p.2.hs[h]? = some (some b) := by rw [a2]; exact hb
      obtain ⟨s2, e1, e2, e3, _, e5⟩ := moveInto_spec (s := p.2) (p := some p.1) (ex := f.nd.toList) (by simpa using a1) hb2
      have hm : modifyData s h = .ok (p.1, s2) := by
        simp only [modifyData, deref, hb, Res.bind_ok, hheap, if_neg hc, Option.getD_none, ← hp, e1]
      rw [hm, Res.bind_ok]
      have hs2 : s2.hs = s0.hs.set h (some p.1) := by rw [e3, a2, hF.hs, List.set_set]
      have hcnt := count_set' hb2 (some p.1) p.1
      have hpb : p.1 ≠ b := by
        rintro e
        have h1 := count_pos_of hb
        rw [← e] at h1
        omega
      have hc1 : s2.hs.count (some p.1) = 1 := by
        rw [e3]
        rw [a2] at hcnt ⊢
        simp [Ne.symm hpb] at hcnt
        omega
      have hs0 : s.hs = s0.hs := by
        rw [hF.hs, hbd]
        apply List.ext_getElem?
        intro i
        by_cases hi : i = h
        · subst hi
          rw [List.getElem?_set_self hlen, hh]
        · rw [set_get _ hi]
      have hcb := count_set' hb2 (some p.1) b
      rw [← e3, a2] at hcb
      simp [hpb] at hcb
      have hbpos : 0 < s2.hs.count (some b) := by
        have h1 := count_pos_of hb
        omega
      refine ih _ s2 p.1 (some v1) n m' n' act' r' ⟨e2, hF.fd1, hF.fd2, hs2, ?_, rfl, by simp, fun _ _ => hc1, fun _ => .inr ⟨?_, ?_, ?_⟩, ?_, ?_⟩ he
      · rw [e5 p.1 (by rw [← e3]; omega), a3]
        rfl
      · rw [← hs0, ← hbd]; exact hc
      · rw [← hbd]; exact hpb
      · rw [← hbd, e5 b (by rw [← e3]; omega), a4 b (Ne.symm hpb)]
        exact hF.val
      · intro k a hk ha
        have hka : s2.hs[k]? = some (some a) := by rw [hs2, set_get _ hk]; exact ha
        have hap : a ≠ p.1 := by
          rintro rfl
          have h3 := count_pos_of ha
          rw [← hs0] at h3
          omega
        rw [e5 a (by rw [← e3]; have := count_pos_of hka; omega), a4 a hap]
        exact hF.others k a hk ha
      · have hn := hF.nd
        dsimp only
        cases e : f.nd with
        | none => rw [e] at hn; cases n <;> exact hn
        | some a =>
          rw [e] at hn a6
          cases n with
          | none => exact hn.elim
          | some w =>
            have hap : a ≠ p.1 := by
              rintro rfl
              simp at a6
            have hc2 := count_set' hb2 (some p.1) a
            rw [← e3, a2] at hc2
            have hab : a ≠ b := by
              rintro rfl
              have h1 := count_pos_of hb
              have h2 := hn.2
              omega
            simp [Ne.symm hap, Ne.symm hab] at hc2
            refine ⟨?_, by have := hn.2; omega⟩
            rw [e5 a (by rw [e]; simp), a4 a hap]
            exact hn.1
  | readM k ih =>
    intro f s b m n m' n' act' r' hF he
    simp only [exec, hF.pm]
    cases m with
    | none => simp [Prog.eval] at he
    | some w =>
      simp only [Prog.eval] at he
      simp only [Option.map_some]
      rw [peek_ok hF.val, Res.bind_ok]
      exact ih _ f s b _ n m' n' act' r' hF he
  | writeM v k ih =>
    intro f s b m n m' n' act' r' hF he
    simp only [exec, hF.pm]
    cases m with
    | none => simp [Prog.eval] at he
    | some w =>
      simp only [Prog.eval] at he
      simp only [Option.map_some]
      obtain ⟨s2, e1, e2, e3, e4, e5⟩ := poke_spec hF.inv hF.val v
      rw [e1, Res.bind_ok]
      have hb : s.hs[h]? = some (some b) := by rw [hF.hs, List.getElem?_set_self hlen]
      refine ih f s2 b (some v) n m' n' act' r' ⟨e2, hF.fd1, hF.fd2, by rw [e3, hF.hs], e4, hF.pm, by simp, fun _ _ => by rw [e3]; exact hF.m1 w rfl, fun _ => ?_, ?_, ?_⟩ he
      · rcases hF.al rfl with h1 | ⟨h1, h2, h3⟩
        · exact .inl h1
        · exact .inr ⟨h1, h2, by rw [e5 _ (Ne.symm h2)]; exact h3⟩
      · intro k' a hk ha
        have hab : a ≠ b := by
          rintro rfl
          have := count_two hlen hk ha
          rw [← hF.hs] at this
          have h1 := hF.m1 w rfl
          omega
        rw [e5 a hab]
        exact hF.others k' a hk ha
      · have hn := hF.nd
        cases e : f.nd with
        | none => rw [e] at hn; cases n <;> exact hn
        | some a =>
          rw [e] at hn
          cases n with
          | none => exact hn.elim
          | some x =>
            have hab : a ≠ b := by
              rintro rfl
              have h1 := count_pos_of hb
              have h2 := hn.2
              omega
            exact ⟨by rw [e5 a hab]; exact hn.1, by rw [e3]; exact hn.2⟩
  | new v k ih =>
    intro f s b m n m' n' act' r' hF he
    simp only [Prog.eval] at he
    simp only [exec]
    obtain ⟨a1, a2, a3, a4, a5, a6⟩ := alloc_spec hF.inv v
    set p := alloc s v with hp
    have hb : s.hs[h]? = some (some b) := by rw [hF.hs, List.getElem?_set_self hlen]
    have ha1' : Inv p.2 (f.nd.toList ++ [p.1]) := ⟨fun a w c hc => by
        have := a1.cnt a w c hc
        rw [List.count_append, List.count_singleton]
        rw [List.count_cons] at this
        by_cases h1 : p.1 = a <;> simp_all <;> omega, fun a hc => by
        have := a1.dead a hc
        rw [List.count_append, List.count_singleton]
        rw [List.count_cons] at this
        by_cases h1 : p.1 = a <;> simp_all, a1.fresh⟩
    obtain ⟨s2, e1, e2, e3, _, e5⟩ := release_opt ha1'
    rw [e1, Res.bind_ok]
    have hpb : b ≠ p.1 := by
      rintro e
      have h1 := count_pos_of hb
      rw [e] at h1
      omega
    have hkeep : ∀ a, 0 < s.hs.count (some a) → s2.val a = s.val a := fun a ha => by
      have hap : a ≠ p.1 := by rintro rfl; omega
      rw [e5 a (by rw [a2]; omega), a4 a hap]
    have hbpos := count_pos_of hb
    refine ih { f with nd := some p.1, act := .new } s2 b m (some v) m' n' act' r' ⟨by simpa using e2, hF.fd1, hF.fd2, by rw [e3, a2, hF.hs], ?_, hF.pm, hF.m0,
      fun w hw => by rw [e3, a2]; exact hF.m1 w hw, fun hm => ?_, ?_, ?_⟩ he
    · rw [hkeep b hbpos]; exact hF.val
    · rcases hF.al hm with h1 | ⟨h1, h2, h3⟩
      · exact .inl h1
      · refine .inr ⟨h1, h2, ?_⟩
        rw [hkeep d1]
        · exact h3
        · have hd : 2 ≤ s0.hs.count (some d1) := by have := count_pos_of hh; omega
          have hc := count_set' hh (some b) d1
          rw [← hF.hs] at hc
          simp [h2] at hc
          omega
    · intro k' a hk ha
      rw [hkeep a (count_pos_of (k := k') (by rw [hF.hs, set_get _ hk]; exact ha))]
      exact hF.others k' a hk ha
    · refine ⟨?_, by rw [e3, a2]; exact a5⟩
      rw [e5 p.1 (by simp), a3]
  | readN k ih =>
    intro f s b m n m' n' act' r' hF he
    simp only [exec]
    have hn := hF.nd
    cases n with
    | none => simp [Prog.eval] at he
    | some w =>
      simp only [Prog.eval] at he
      cases e : f.nd with
      | none => rw [e] at hn; exact hn.elim
      | some a =>
        rw [e] at hn
        simp only
        rw [peek_ok hn.1, Res.bind_ok]
        exact ih _ f s b m _ m' n' act' r' hF he
  | writeN v k ih =>
    intro f s b m n m' n' act' r' hF he
    simp only [exec]
    have hn := hF.nd
    cases n with
    | none => simp [Prog.eval] at he
    | some w =>
      simp only [Prog.eval] at he
      cases e : f.nd with
      | none => rw [e] at hn; exact hn.elim
      | some a =>
        rw [e] at hn
        simp only
        obtain ⟨s2, e1, e2, e3, e4, e5⟩ := poke_spec hF.inv hn.1 v
        rw [e1, Res.bind_ok]
        have hkeep : ∀ c, 0 < s.hs.count (some c) → s2.val c = s.val c := fun c hc => by
          refine e5 c ?_
          rintro rfl
          have := hn.2
          omega
        have hb : s.hs[h]? = some (some b) := by rw [hF.hs, List.getElem?_set_self hlen]
        refine ih f s2 b m (some v) m' n' act' r' ⟨e2, hF.fd1, hF.fd2, by rw [e3, hF.hs], ?_, hF.pm, hF.m0,
          fun w hw => by rw [e3]; exact hF.m1 w hw, fun hm => ?_, ?_, ?_⟩ he
        · rw [hkeep b (count_pos_of hb)]; exact hF.val
        · rcases hF.al hm with h1 | ⟨h1, h2, h3⟩
          · exact .inl h1
          · refine .inr ⟨h1, h2, ?_⟩
            rw [hkeep d1]
            · exact h3
            · have hd : 2 ≤ s0.hs.count (some d1) := by have := count_pos_of hh; omega
              have hc := count_set' hh (some b) d1
              rw [← hF.hs] at hc
              simp [h2] at hc
              omega
        · intro k' c hk hc
          rw [hkeep c (count_pos_of (k := k') (by rw [hF.hs, set_get _ hk]; exact hc))]
          exact hF.others k' c hk hc
        · rw [e]
          exact ⟨e4, by rw [e3]; exact hn.2⟩
  | rtol k ih =>
    intro f s b m n m' n' act' r' hF he
    simp only [exec]
    cases v2 with
    | none => simp [Prog.eval] at he
    | some w =>
      simp only [Prog.eval] at he
      exact ih { f with act := .rtol } s b m n m' n' act' r' ⟨hF.inv, hF.fd1, hF.fd2, hF.hs, hF.val, hF.pm, hF.m0, hF.m1, hF.al, hF.others, hF.nd⟩ he

end

end Verif.Cow
