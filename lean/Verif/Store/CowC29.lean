import Verif.Store.CowProps

/-!
# Programs with tensors that share storage behave as programs with values (C29)
-/

namespace Verif.Cow

open Verif

section
variable {V R T : Type*}

/-- A task uses only the references it has (which the C++ types ensure): `M` after `modifyData`, `N` after `makeNewData`, the second storage if there is one. -/
def Prog.Scoped (two : Bool) : Prog V R → Bool → Bool → Prop
  | .done _, _, _ => True
  | .fail, _, _ => True
  | .read1 k, m, n => ∀ v, (k v).Scoped two m n
  | .read2 k, m, n => two = true ∧ ∀ v, (k v).Scoped two m n
  | .modify k, _, n => k.Scoped two true n
  | .readM k, m, n => m = true ∧ ∀ v, (k v).Scoped two m n
  | .writeM _ k, m, n => m = true ∧ k.Scoped two m n
  | .new _ k, m, _ => k.Scoped two m true
  | .readN k, m, n => n = true ∧ ∀ v, (k v).Scoped two m n
  | .writeN _ k, m, n => n = true ∧ k.Scoped two m n
  | .rtol k, m, n => two = true ∧ k.Scoped two m n

/-- A task does not read through the reference to the old storage after `modifyData`, as all tasks of the library; with the same tensor twice (`same`) neither
through the second. -/
def Prog.Fresh (same : Bool) : Prog V R → Bool → Prop
  | .done _, _ => True
  | .fail, _ => True
  | .read1 k, m => m = false ∧ ∀ v, (k v).Fresh same m
  | .read2 k, m => (same = true → m = false) ∧ ∀ v, (k v).Fresh same m
  | .modify k, _ => k.Fresh same true
  | .readM k, m => ∀ v, (k v).Fresh same m
  | .writeM _ k, m => k.Fresh same m
  | .new _ k, m => k.Fresh same m
  | .readN k, m => ∀ v, (k v).Fresh same m
  | .writeN _ k, m => k.Fresh same m
  | .rtol k, m => k.Fresh same m

/-- The same of an overload; one that is not `const` starts after `modifyData`. -/
def Entry.Scoped (two : Bool) : Entry V R → Prop
  | .const p => p.Scoped two false false
  | .nonconst p => p.Scoped two true false
  | .missing => True

/-- The same of an overload. -/
def Entry.Fresh (same : Bool) : Entry V R → Prop
  | .const p => p.Fresh same false
  | .nonconst p => p.Fresh same true
  | .missing => True

theorem eval_scoped (a1 a2 : Bool) (v1 : V) (v2 : Option V) : ∀ (p : Prog V R) (m n : Option V) (act : Act), p.Scoped v2.isSome m.isSome n.isSome →
    (act = .new → n.isSome) → (act = .rtol → v2.isSome) →
    ∃ m' n' act' r, p.eval a1 a2 v1 v2 m n act = some (m', n', act', r) ∧ (act' = .new → n'.isSome) ∧ (act' = .rtol → v2.isSome) := by
  intro p
  induction p with
  | done r => intro m n act _ h1 h2; exact ⟨m, n, act, some r, rfl, h1, h2⟩
  | fail => intro m n act _ h1 h2; exact ⟨m, n, act, none, rfl, h1, h2⟩
  | read1 k ih => intro m n act h h1 h2; simp only [Prog.eval]; exact ih _ m n act (h _) h1 h2
  | read2 k ih =>
    intro m n act h h1 h2
    cases v2 with
    | none => cases h.1
    | some w => simp only [Prog.eval]; exact ih _ m n act (h.2 _) h1 h2
  | modify k ih => intro m n act h h1 h2; simp only [Prog.eval]; exact ih _ n act h h1 h2
  | readM k ih =>
    intro m n act h h1 h2
    cases m with
    | none => cases h.1
    | some w => simp only [Prog.eval]; exact ih _ _ n act (h.2 _) h1 h2
  | writeM v k ih =>
    intro m n act h h1 h2
    cases m with
    | none => cases h.1
    | some w => simp only [Prog.eval]; exact ih _ n act h.2 h1 h2
  | new v k ih => intro m n act h h1 h2; simp only [Prog.eval]; exact ih m _ _ h (fun _ => rfl) (by simp)
  | readN k ih =>
    intro m n act h h1 h2
    cases n with
    | none => cases h.1
    | some w => simp only [Prog.eval]; exact ih _ m _ act (h.2 _) h1 h2
  | writeN v k ih =>
    intro m n act h h1 h2
    cases n with
    | none => cases h.1
    | some w => simp only [Prog.eval]; exact ih m _ act h.2 h1 h2
  | rtol k ih =>
    intro m n act h h1 h2
    cases v2 with
    | none => cases h.1
    | some w => simp only [Prog.eval]; exact ih m n _ h.2 (by simp) (fun _ => rfl)

theorem eval_fresh {same a1 a2 : Bool} (v1 : V) (v2 : Option V) (ha : a2 = true → same = true) : ∀ (p : Prog V R) (m n : Option V) (act : Act),
    p.Fresh same m.isSome → p.eval a1 a2 v1 v2 m n act = p.eval false false v1 v2 m n act := by
  intro p
  induction p with
  | done r => intro m n act _; rfl
  | fail => intro m n act _; rfl
  | read1 k ih =>
    intro m n act h
    cases m with
    | none => simp only [Prog.eval, Option.getD_none, ite_self]; exact ih _ _ n act (h.2 _)
    | some w => cases h.1
  | read2 k ih =>
    intro m n act h
    cases v2 with
    | none => simp [Prog.eval]
    | some x =>
      simp only [Prog.eval]
      have : (if a2 = true then m.getD x else x) = x := by
        split
        · next h1 =>
          have := h.1 (ha h1)
          cases m with
          | none => rfl
          | some w => cases this
        · rfl
      rw [this]
      simp only [Bool.false_eq_true, if_false]
      exact ih _ m n act (h.2 _)
  | modify k ih => intro m n act h; simp only [Prog.eval]; exact ih _ n act h
  | readM k ih =>
    intro m n act h
    cases m with
    | none => simp [Prog.eval]
    | some w => simp only [Prog.eval]; exact ih _ _ n act (h _)
  | writeM v k ih =>
    intro m n act h
    cases m with
    | none => simp [Prog.eval]
    | some w => simp only [Prog.eval]; exact ih _ n act h
  | new v k ih => intro m n act h; simp only [Prog.eval]; exact ih m _ _ h
  | readN k ih =>
    intro m n act h
    cases n with
    | none => simp [Prog.eval]
    | some w => simp only [Prog.eval]; exact ih _ m _ act (h _)
  | writeN v k ih =>
    intro m n act h
    cases n with
    | none => simp [Prog.eval]
    | some w => simp only [Prog.eval]; exact ih m _ act h
  | rtol k ih =>
    intro m n act h
    cases v2 with
    | none => simp [Prog.eval]
    | some w => simp only [Prog.eval]; exact ih m n _ h

theorem obs_get (s : St V) (k : Nat) : (obs s)[k]? = (s.hs[k]?).map fun p => p.bind s.val := by
  unfold obs St.val
  rw [List.getElem?_map]

theorem obs_set {s s' : St V} {h : Nat} {p : Option Nat} {x : Option V} (hs : s'.hs = s.hs.set h p) (hx : p.bind s'.val = x)
    (ho : ∀ k a, k ≠ h → s.hs[k]? = some (some a) → s'.val a = s.val a) : obs s' = (obs s).set h x := by
  apply List.ext_getElem?
  intro k
  rw [obs_get, hs]
  by_cases hk : k = h
  · subst hk
    by_cases hl : k < s.hs.length
    · rw [List.getElem?_set_self hl, List.getElem?_set_self (by simpa [obs] using hl), Option.map_some, hx]
    · rw [List.getElem?_eq_none (by simpa using hl), List.getElem?_eq_none (by simpa [obs] using hl)]
      rfl
  · rw [List.getElem?_set_ne (Ne.symm hk), List.getElem?_set_ne (Ne.symm hk), obs_get]
    cases e : s.hs[k]? with
    | none => rfl
    | some q =>
      cases q with
      | none => rfl
      | some a => simp [ho k a hk e]

theorem get_of_obs {s : St V} {k : Nat} {v : V} (h : (obs s)[k]? = some (some v)) : ∃ a, s.hs[k]? = some (some a) ∧ s.val a = some v := by
  rw [obs_get] at h
  cases e : s.hs[k]? with
  | none => rw [e] at h; cases h
  | some q =>
    rw [e] at h
    cases q with
    | none => simp at h
    | some a => exact ⟨a, rfl, by simpa using h⟩

theorem set_same {l : List (Option Nat)} {h : Nat} {p : Option Nat} (hh : l[h]? = some p) : l.set h p = l := by
  apply List.ext_getElem?
  intro i
  by_cases hi : i = h
  · subst hi
    have hl : i < l.length := by
      by_contra hc
      rw [List.getElem?_eq_none (by omega)] at hh
      cases hh
    rw [List.getElem?_set_self hl, hh]
  · rw [set_get _ hi]

theorem finish_spec {h : Nat} {s0 : St V} {d1 : Nat} {v1 : V} {d2 : Option Nat} {f : Frame} {s : St V} {b : Nat} {m n : Option V}
    (hh : s0.hs[h]? = some (some d1)) {v2 : Option V} {g : Option Nat}
    (h2 : match g, d2, v2 with
      | none, none, none => True
      | some g, some a, some w => s0.hs[g]? = some (some a) ∧ s0.val a = some w
      | _, _, _ => False)
    (hF : FI h s0 d1 v1 d2 f s b m n) (hn : f.act = .new → n.isSome) (hr : f.act = .rtol → v2.isSome) :
    ∃ s', finish h g f s = .ok s' ∧ Inv s' [] ∧ obs s' = (obs s0).set h (finalVal (g == some h) v1 v2 m n f.act) ∧ (finalVal (g == some h) v1 v2 m n f.act).isSome := by
  have hlen : h < s0.hs.length := by
    by_contra hc
    rw [List.getElem?_eq_none (by omega)] at hh
    cases hh
  have hb : s.hs[h]? = some (some b) := by rw [hF.hs, List.getElem?_set_self hlen]
  have hinv : Inv s (f.nd.toList ++ []) := by simpa using hF.inv
  have hk : ∀ k a, k ≠ h → s0.hs[k]? = some (some a) → s.hs[k]? = some (some a) := fun k a h1 h2 => by rw [hF.hs, set_get _ h1]; exact h2
  unfold finish
  cases hact : f.act with
  | none =>
    obtain ⟨s', e1, e2, e3, _, e5⟩ := release_opt hinv
    refine ⟨s', e1, e2, ?_, rfl⟩
    refine obs_set (p := some b) (by rw [e3, hF.hs]) ?_ fun k a h1 h2 => ?_
    · simp only [Option.bind_some]
      rw [e5 b (by have := count_pos_of hb; omega), hF.val]
      rfl
    · rw [e5 a (by have := count_pos_of (hk k a h1 h2); omega)]
      exact hF.others k a h1 h2
  | new =>
    have hnd := hF.nd
    have hn' := hn hact
    cases n with
    | none => cases hn'
    | some w =>
      cases e : f.nd with
      | none => rw [e] at hnd; exact hnd.elim
      | some a =>
        rw [e] at hnd
        obtain ⟨s', e1, e2, e3, _, e5⟩ := moveInto_spec (p := some a) (ex := []) (by rw [e] at hinv; exact hinv) hb
        refine ⟨s', e1, e2, ?_, rfl⟩
        refine obs_set (p := some a) (by rw [e3, hF.hs, List.set_set]) ?_ fun k c h1 h2 => ?_
        · simp only [Option.bind_some]
          rw [e5 a (by
            have := count_pos_of (l := s.hs.set h (some a)) (k := h) (a := a) (List.getElem?_set_self (by rw [hF.hs]; simpa using hlen))
            omega), hnd.1]
          rfl
        · rw [e5 c (by
            have := count_pos_of (l := s.hs.set h (some a)) (k := k) (a := c) (by rw [set_get _ h1]; exact hk k c h1 h2)
            omega)]
          exact hF.others k c h1 h2
  | rtol =>
    have hr' := hr hact
    cases v2 with
    | none => cases hr'
    | some w =>
      cases g with
      | none => exact (by cases d2 <;> exact h2.elim)
      | some g =>
        cases d2 with
        | none => exact h2.elim
        | some a =>
          simp only at h2
          obtain ⟨h3, h4⟩ := h2
          by_cases hg : g = h
          · subst hg
            simp only [hb]
            obtain ⟨s1, e1, e2, e3, e5⟩ := copyInto_spec (p := some b) hF.inv (fun x hx => by cases hx; exact ⟨_, hF.val⟩) hb
            obtain ⟨s', f1, f2, f3, _, f5⟩ := release_opt (s := s1) (ex := []) (p := f.nd) (by simpa using e2)
            rw [set_same hb] at e3 e5
            refine ⟨s', by rw [e1, Res.bind_ok]; exact f1, f2, ?_, by simp [finalVal]⟩
            refine obs_set (p := some b) (by rw [f3, e3, hF.hs]) ?_ fun k c h1 h2 => ?_
            · simp only [Option.bind_some]
              rw [f5 b (by rw [e3]; have := count_pos_of hb; omega), e5 b (by have := count_pos_of hb; omega), hF.val]
              simp [finalVal]
            · have := count_pos_of (hk k c h1 h2)
              rw [f5 c (by rw [e3]; omega), e5 c (by omega)]
              exact hF.others k c h1 h2
          · have hsg := hk g a hg h3
            simp only [hsg]
            have hva : s.val a = some w := by rw [hF.others g a hg h3]; exact h4
            obtain ⟨s1, e1, e2, e3, e5⟩ := copyInto_spec (p := some a) hF.inv (fun x hx => by cases hx; exact ⟨_, hva⟩) hb
            obtain ⟨s', f1, f2, f3, _, f5⟩ := release_opt (s := s1) (ex := []) (p := f.nd) (by simpa using e2)
            have hne : (some g == some h) = false := by simpa using hg
            refine ⟨s', by rw [e1, Res.bind_ok]; exact f1, f2, ?_, by simp [finalVal, hne]⟩
            refine obs_set (p := some a) (by rw [f3, e3, hF.hs, List.set_set]) ?_ fun k c h1 h2 => ?_
            · simp only [Option.bind_some]
              have := count_pos_of (l := s.hs.set h (some a)) (k := g) (a := a) (by rw [set_get _ hg]; exact hsg)
              rw [f5 a (by rw [e3]; omega), e5 a (by omega), hva]
              simp [finalVal, hne]
            · have := count_pos_of (l := s.hs.set h (some a)) (k := k) (a := c) (by rw [set_get _ h1]; exact hk k c h1 h2)
              rw [f5 c (by rw [e3]; omega), e5 c (by omega)]
              exact hF.others k c h1 h2

/-! ### Programs of values -/

/-- The task a call runs on the values: nothing is shared. -/
def taskVal (ty : V → T) (nc : Bool) (t : T → Option T → Entry V R) (same : Bool) (v1 : V) (v2 : Option V) : Option (Option V × Option R) :=
  ((call nc (t (ty v1) (v2.map ty))).eval false false v1 v2 none none .none).map fun x => (finalVal same v1 v2 x.1 x.2.1 x.2.2.1, x.2.2.2)

/-- The statement on a list of values, `none` for a tensor without storage. -/
def Op.spec (ty : V → T) : Op V R T → List (Option V) → Res (List (Option V) × Option R)
  | .decl, e => .ok (e ++ [none], none)
  | .create h v, e => if h < e.length then .ok (e.set h (some v), none) else .ub
  | .copy h g, e => match e[g]? with
    | none => .ub
    | some x => if h < e.length then .ok (e.set h x, none) else .ub
  | .move h g, e => match e[g]? with
    | none => .ub
    | some x => if h < e.length then .ok (if h = g then e else (e.set g none).set h x, none) else .ub
  | .destroy h, e => if h < e.length then .ok (e.set h none, none) else .ub
  | .task nc t h g, e => match e[h]?, g with
    | some (some v1), none => match taskVal ty nc t false v1 none with
      | none => .ub
      | some x => .ok (e.set h x.1, x.2)
    | some (some v1), some g' => match e[g']? with
      | some (some v2) => match taskVal ty nc t (g' == h) v1 (some v2) with
        | none => .ub
        | some x => .ok (e.set h x.1, x.2)
      | _ => .ub
    | _, _ => .ub

/-- A program on values. -/
def specAll (ty : V → T) : List (Op V R T) → List (Option V) → Res (List (Option V) × List (Option R))
  | [], e => .ok (e, [])
  | o :: os, e => (o.spec ty e).bind fun x => (specAll ty os x.1).bind fun y => .ok (y.1, x.2 :: y.2)

/-- All overloads of the tasks use only the references they have. -/
def Op.Scoped : Op V R T → Prop
  | .task _ t _ g => ∀ t1 t2, t2.isSome = g.isSome → (t t1 t2).Scoped g.isSome
  | _ => True

/-- All overloads of the tasks do not read the old storage after `modifyData`. -/
def Op.Fresh : Op V R T → Prop
  | .task _ t h g => ∀ t1 t2, t2.isSome = g.isSome → (t t1 t2).Fresh (g == some h)
  | _ => True

/-- The tensors a statement may change. -/
def Op.targets : Op V R T → List Nat
  | .decl => []
  | .create h _ => [h]
  | .copy h _ => [h]
  | .move h g => [h, g]
  | .destroy h => [h]
  | .task _ _ h _ => [h]

/-- The tensors of a statement are declared, those of a task have storage. -/
def Op.Valid : Op V R T → List (Option V) → Prop
  | .decl, _ => True
  | .create h _, e => h < e.length
  | .copy h g, e => h < e.length ∧ g < e.length
  | .move h g, e => h < e.length ∧ g < e.length
  | .destroy h, e => h < e.length
  | .task _ _ h g, e => (∃ v, e[h]? = some (some v)) ∧ ∀ g', g = some g' → ∃ v, e[g']? = some (some v)

theorem call_scoped {nc : Bool} {two : Bool} {en : Entry V R} (h : en.Scoped two) : (call nc en).Scoped two false false := by
  cases en with
  | const p => exact h
  | nonconst p => cases nc <;> simp only [call, if_true, Bool.false_eq_true, if_false, Prog.Scoped]; exact h
  | missing => trivial

theorem call_fresh {nc same : Bool} {en : Entry V R} (h : en.Fresh same) : (call nc en).Fresh same false := by
  cases en with
  | const p => exact h
  | nonconst p => cases nc <;> simp only [call, if_true, Bool.false_eq_true, if_false, Prog.Fresh]; exact h
  | missing => trivial

theorem FI.start {h : Nat} {s : St V} {d1 : Nat} {v1 : V} {d2 : Option Nat} (hi : Inv s []) (hh : s.hs[h]? = some (some d1)) (hv : s.val d1 = some v1) :
    FI h s d1 v1 d2 ⟨d1, d2, none, none, .none⟩ s d1 none none :=
  ⟨by simpa using hi, rfl, rfl, (set_same hh).symm, by simpa using hv, rfl, fun _ => rfl, by simp, by simp, fun _ _ _ _ => rfl, trivial⟩

/-- The value of the second tensor, if there is one. -/
def Second (e : List (Option V)) : Option Nat → Option V → Prop
  | none, none => True
  | some g, some v2 => e[g]? = some (some v2)
  | _, _ => False

/-- One call of a task: it changes its first tensor only; the value and the result are those of the body on the values, where the references may show what was written. -/
theorem doTask_spec {ty : V → T} {nc : Bool} {t : T → Option T → Entry V R} {h : Nat} {g : Option Nat} {s : St V} (hi : Inv s [])
    (hsc : (Op.task nc t h g : Op V R T).Scoped) {v1 : V} (h1 : (obs s)[h]? = some (some v1)) {v2 : Option V}
    (h2 : Second (obs s) g v2) :
    ∃ s' m n act r a1 a2, doTask ty nc t h g s = .ok (s', r) ∧ Inv s' [] ∧ (a2 = true → g = some h) ∧
      (call nc (t (ty v1) (v2.map ty))).eval a1 a2 v1 v2 none none .none = some (m, n, act, r) ∧
      obs s' = (obs s).set h (finalVal (g == some h) v1 v2 m n act) ∧ (finalVal (g == some h) v1 v2 m n act).isSome := by
  obtain ⟨d1, hd1, hv1⟩ := get_of_obs h1
  have hdr : ∀ k a, s.hs[k]? = some (some a) → deref s k = .ok a := fun k a hk => by unfold deref; rw [hk]
  have hsc' : (call nc (t (ty v1) (v2.map ty))).Scoped v2.isSome false false := by
    refine call_scoped ?_
    have hg : g.isSome = v2.isSome := by cases g <;> cases v2 <;> first | rfl | exact h2.elim
    have := hsc (ty v1) (v2.map ty) (by rw [hg]; cases v2 <;> rfl)
    rw [hg] at this
    exact this
  set a1 := decide (s.hs.count (some d1) = 1) with ha1
  obtain ⟨m, n, act, r, e1, e2, e3⟩ := eval_scoped a1 (a1 && (g == some h)) v1 v2 (call nc (t (ty v1) (v2.map ty))) none none .none hsc' (by simp) (by simp)
  unfold doTask
  rw [hdr h d1 hd1, Res.bind_ok, peek_ok hv1, Res.bind_ok]
  cases g with
  | none =>
    cases v2 with
    | some w => exact h2.elim
    | none =>
      obtain ⟨f', s', b', f1, f2, f3⟩ := exec_spec (d2 := none) hd1 (v2 := none) (same := (none == some h)) trivial
        (call nc (t (ty v1) none)) ⟨d1, none, none, none, .none⟩ s d1 none none m n act r (FI.start hi hd1 hv1) e1
      subst f2
      obtain ⟨s2, g1, g2, g3, g4⟩ := finish_spec (g := none) (v2 := none) (d2 := none) hd1 trivial f3 e2 e3
      refine ⟨s2, m, n, f'.act, r, _, _, ?_, g2, ?_, e1, g3, g4⟩
      · simp only
        rw [f1, Res.bind_ok, g1, Res.bind_ok]
      · simp
  | some g' =>
    cases v2 with
    | none => exact h2.elim
    | some w =>
      obtain ⟨d2, hd2, hv2⟩ := get_of_obs h2
      obtain ⟨f', s', b', f1, f2, f3⟩ := exec_spec (d2 := some d2) hd1 (v2 := some w) (same := (some g' == some h)) (by
          simp only
          by_cases hg : g' = h
          · subst hg
            rw [hd1] at hd2
            cases hd2
            rw [hv1] at hv2
            cases hv2
            simp
          · rw [if_neg (by simpa using hg)]
            exact ⟨⟨g', hg, hd2⟩, hv2⟩)
        (call nc (t (ty v1) (some (ty w)))) ⟨d1, some d2, none, none, .none⟩ s d1 none none m n act r (FI.start hi hd1 hv1) e1
      subst f2
      obtain ⟨s2, g1, g2, g3, g4⟩ := finish_spec (g := some g') (v2 := some w) (d2 := some d2) hd1 ⟨hd2, hv2⟩ f3 e2 e3
      refine ⟨s2, m, n, f'.act, r, _, _, ?_, g2, ?_, e1, g3, g4⟩
      · simp only
        rw [hdr g' d2 hd2, Res.bind_ok, peek_ok hv2, Res.bind_ok, f1, Res.bind_ok, g1, Res.bind_ok]
      · intro h3
        rw [Bool.and_eq_true] at h3
        simpa using h3.2

theorem obs_length (s : St V) : (obs s).length = s.hs.length := by simp [obs]

theorem hs_get {s : St V} {k : Nat} (h : k < (obs s).length) : ∃ p, s.hs[k]? = some p :=
  ⟨_, List.getElem?_eq_getElem (by rwa [obs_length] at h)⟩

theorem Inv.val_of {s : St V} (hi : Inv s []) {k a : Nat} (h : s.hs[k]? = some (some a)) : ∃ v, s.val a = some v := by
  obtain ⟨v, hv⟩ := hi.live (a := a) (by have := count_pos_of h; omega)
  exact ⟨v, by simp [St.val, hv]⟩

/-- One statement with valid arguments. -/
theorem run_spec {ty : V → T} {s : St V} (hi : Inv s []) (o : Op V R T) (hsc : o.Scoped) (hv : o.Valid (obs s)) :
    ∃ s' r, o.run ty s = .ok (s', r) ∧ Inv s' [] ∧ (∀ k, k < (obs s).length → k ∉ o.targets → (obs s')[k]? = (obs s)[k]?) ∧
      (o.Fresh → o.spec ty (obs s) = .ok (obs s', r)) := by
  have hset : ∀ (h : Nat) (x : Option V) (k : Nat), k ≠ h → ((obs s).set h x)[k]? = (obs s)[k]? := fun h x k hk => List.getElem?_set_ne (Ne.symm hk)
  cases o with
  | decl =>
    refine ⟨_, none, rfl, ⟨fun a v c ha => ?_, fun a ha => ?_, hi.fresh⟩, fun k hk _ => ?_, fun _ => ?_⟩
    · have := hi.cnt a v c ha
      simpa using this
    · have := hi.dead a ha
      simpa using this
    · simp only [obs, List.map_append, List.map_cons, List.map_nil]
      rw [List.getElem?_append_left (by simpa [obs] using hk)]
    · simp [Op.spec, obs]
  | create h v =>
    obtain ⟨p, hp⟩ := hs_get (s := s) hv
    obtain ⟨a1, a2, a3, a4, a5, _⟩ := alloc_spec hi v
    obtain ⟨s', e1, e2, e3, _, e5⟩ := moveInto_spec (s := (alloc s v).2) (p := some (alloc s v).1) (ex := []) (by simpa using a1) (by rw [a2]; exact hp)
    have hob : obs s' = (obs s).set h (some v) := by
      refine obs_set (by rw [e3, a2]) ?_ fun k a hk ha => ?_
      · simp only [Option.bind_some]
        rw [e5, a3]
        have := count_pos_of (l := (alloc s v).2.hs.set h (some (alloc s v).1)) (k := h) (a := (alloc s v).1)
          (List.getElem?_set_self (by rw [a2, ← obs_length]; exact hv))
        omega
      · rw [e5 a (by
          have := count_pos_of (l := (alloc s v).2.hs.set h (some (alloc s v).1)) (k := k) (a := a) (by rw [set_get _ hk, a2]; exact ha)
          omega), a4]
        rintro rfl
        have := count_pos_of ha
        omega
    refine ⟨s', none, by simp only [Op.run]; rw [e1, Res.bind_ok], e2, fun k hk hkt => ?_, fun _ => ?_⟩
    · rw [hob]; exact hset h _ k (by simpa [Op.targets] using hkt)
    · rw [Op.spec, if_pos (show h < _ from hv), hob]
  | copy h g =>
    obtain ⟨p, hp⟩ := hs_get (s := s) hv.1
    obtain ⟨q, hq⟩ := hs_get (s := s) hv.2
    obtain ⟨s', e1, e2, e3, e5⟩ := copyInto_spec (p := q) hi (fun a ha => by subst ha; exact hi.val_of hq) hp
    have hob : obs s' = (obs s).set h (q.bind s.val) := by
      refine obs_set e3 ?_ fun k a hk ha => ?_
      · cases q with
        | none => rfl
        | some a =>
          simp only [Option.bind_some]
          refine e5 a ?_
          have := count_pos_of (l := s.hs.set h (some a)) (k := h) (a := a) (List.getElem?_set_self (by rw [← obs_length]; exact hv.1))
          omega
      · refine e5 a ?_
        have := count_pos_of (l := s.hs.set h q) (k := k) (a := a) (by rw [set_get _ hk]; exact ha)
        omega
    refine ⟨s', none, by simp only [Op.run, hq]; rw [e1, Res.bind_ok], e2, fun k hk hkt => ?_, fun _ => ?_⟩
    · rw [hob]; exact hset h _ k (by simpa [Op.targets] using hkt)
    · simp only [Op.spec, obs_get, hq, Option.map_some]
      rw [if_pos hv.1, hob]
  | move h g =>
    obtain ⟨p, hp⟩ := hs_get (s := s) hv.1
    obtain ⟨q, hq⟩ := hs_get (s := s) hv.2
    by_cases hg : h = g
    · refine ⟨s, none, by simp only [Op.run, hq, if_pos hg], hi, fun _ _ _ => rfl, fun _ => ?_⟩
      simp only [Op.spec, obs_get, hq, Option.map_some, if_pos hg]
      rw [if_pos hv.1]
    · have hi2 : Inv { s with hs := s.hs.set g none } (q.toList ++ []) := by
        refine ⟨fun a v c ha => ?_, fun a ha => ?_, hi.fresh⟩
        · have := hi.cnt a v c ha
          have h2 := count_set' hq none a
          simp at h2 this ⊢
          omega
        · have := hi.dead a ha
          have h2 := count_set' hq none a
          simp at h2 this ⊢
          omega
      have hp2 : ({ s with hs := s.hs.set g none } : St V).hs[h]? = some p := by
        show (s.hs.set g none)[h]? = some p
        rw [set_get _ hg]; exact hp
      obtain ⟨s', e1, e2, e3, _, e5⟩ := moveInto_spec hi2 hp2
      dsimp only at e3 e5
      have hgl : g < s.hs.length := by rw [← obs_length]; exact hv.2
      have hhl : h < s.hs.length := by rw [← obs_length]; exact hv.1
      have hmid : obs ({ s with hs := s.hs.set g none } : St V) = (obs s).set g none :=
        obs_set (p := none) rfl rfl fun _ _ _ _ => rfl
      have hob : obs s' = ((obs s).set g none).set h (q.bind s.val) := by
        rw [← hmid]
        refine obs_set (p := q) e3 ?_ fun k a hk ha => ?_
        · cases q with
          | none => rfl
          | some a =>
            simp only [Option.bind_some]
            refine e5 a ?_
            have := count_pos_of (l := (s.hs.set g none).set h (some a)) (k := h) (a := a) (List.getElem?_set_self (by simpa using hhl))
            omega
        · refine e5 a ?_
          have := count_pos_of (l := (s.hs.set g none).set h q) (k := k) (a := a) (by rw [set_get _ hk]; exact ha)
          omega
      refine ⟨s', none, by simp only [Op.run, hq, if_neg hg]; rw [e1, Res.bind_ok], e2, fun k hk hkt => ?_, fun _ => ?_⟩
      · simp only [Op.targets, List.mem_cons, List.not_mem_nil, or_false, not_or] at hkt
        rw [hob, List.getElem?_set_ne (Ne.symm hkt.1), hset g _ k hkt.2]
      · simp only [Op.spec, obs_get, hq, Option.map_some, if_neg hg]
        rw [if_pos hv.1, hob]
  | destroy h =>
    obtain ⟨p, hp⟩ := hs_get (s := s) hv
    obtain ⟨s', e1, e2, e3, _, e5⟩ := moveInto_spec (p := none) (ex := []) (by simpa using hi) hp
    have hob : obs s' = (obs s).set h none := by
      refine obs_set e3 rfl fun k a hk ha => ?_
      refine e5 a ?_
      have := count_pos_of (l := s.hs.set h none) (k := k) (a := a) (by rw [set_get _ hk]; exact ha)
      omega
    refine ⟨s', none, by simp only [Op.run]; rw [e1, Res.bind_ok], e2, fun k hk hkt => ?_, fun _ => ?_⟩
    · rw [hob]; exact hset h _ k (by simpa [Op.targets] using hkt)
    · rw [Op.spec, if_pos (show h < _ from hv), hob]
  | task nc t h g =>
    obtain ⟨⟨v1, h1⟩, hg⟩ := hv
    obtain ⟨v2, h2⟩ : ∃ v2 : Option V, Second (obs s) g v2 := by
      cases g with
      | none => exact ⟨none, trivial⟩
      | some g' =>
        obtain ⟨w, hw⟩ := hg g' rfl
        exact ⟨some w, hw⟩
    obtain ⟨s', m, n, act, r, a1, a2, e1, e2, e3, e4, e5, _⟩ := doTask_spec (ty := ty) hi hsc h1 h2
    refine ⟨s', r, e1, e2, fun k hk hkt => ?_, fun hf => ?_⟩
    · rw [e5]; exact hset h _ k (by simpa [Op.targets] using hkt)
    · have hgi : (v2.map ty).isSome = g.isSome := by cases g <;> cases v2 <;> first | rfl | exact h2.elim
      rw [eval_fresh (same := (g == some h)) v1 v2 (by intro h3; rw [e3 h3]; simp) _ _ _ _ (call_fresh (hf (ty v1) (v2.map ty) hgi))] at e4
      simp only [Op.spec, h1]
      cases g with
      | none =>
        cases v2 with
        | some w => exact h2.elim
        | none =>
          have : taskVal ty nc t false v1 none = some (finalVal false v1 none m n act, r) := by
            unfold taskVal
            rw [e4]
            rfl
          rw [e5]
          simp only [this]
          rfl
      | some g' =>
        cases v2 with
        | none => exact h2.elim
        | some w =>
          have : taskVal ty nc t (g' == h) v1 (some w) = some (finalVal (some g' == some h) v1 (some w) m n act, r) := by
            unfold taskVal
            rw [e4]
            rfl
          have h2' : (obs s)[g']? = some (some w) := h2
          simp only [h2', this]
          rw [e5]

/-- A statement with arguments that are not valid is undefined. -/
theorem run_invalid {ty : V → T} {s : St V} (o : Op V R T) (hv : ¬ o.Valid (obs s)) : o.run ty s = .ub := by
  have hnone : ∀ k, ¬ k < (obs s).length → s.hs[k]? = none := fun k hk => by
    rw [obs_length] at hk
    exact List.getElem?_eq_none (by omega)
  cases o with
  | decl => exact absurd trivial hv
  | create h v =>
    have := hnone h hv
    simp only [Op.run, moveInto, alloc, this, Res.bind]
  | copy h g =>
    simp only [Op.run]
    cases e : s.hs[g]? with
    | none => rfl
    | some p =>
      have hg : g < (obs s).length := by
        by_contra hc
        rw [hnone g hc] at e
        cases e
      have hh := hnone h fun hc => hv ⟨hc, hg⟩
      simp only [copyInto]
      cases p with
      | none => simp only [retain, Res.bind, moveInto, hh]
      | some a =>
        simp only [retain]
        cases s.heap a with
        | none => rfl
        | some x => simp only [Res.bind, moveInto, hh]
  | move h g =>
    simp only [Op.run]
    cases e : s.hs[g]? with
    | none => rfl
    | some p =>
      have hg : g < (obs s).length := by
        by_contra hc
        rw [hnone g hc] at e
        cases e
      have hh := hnone h fun hc => hv ⟨hc, hg⟩
      have hne : h ≠ g := by rintro rfl; rw [hh] at e; cases e
      have hh2 : (s.hs.set g none)[h]? = none := by rw [set_get _ hne]; exact hh
      simp only [if_neg hne, moveInto, hh2, Res.bind]
  | destroy h =>
    have := hnone h hv
    simp only [Op.run, moveInto, this, Res.bind]
  | task nc t h g =>
    simp only [Op.run, doTask]
    have key : ∀ k, (∀ v, (obs s)[k]? ≠ some (some v)) → (deref s k).bind (fun d => peek s d) = .ub := by
      intro k hk
      unfold deref
      cases e : s.hs[k]? with
      | none => rfl
      | some p =>
        cases p with
        | none => rfl
        | some a =>
          simp only [Res.bind, peek]
          cases e2 : s.heap a with
          | none => rfl
          | some x =>
            exfalso
            refine hk x.1 ?_
            rw [obs_get, e]
            simp [St.val, e2]
    have bub : ∀ {α β γ : Type _} (x : Res α) (f : α → Res β) (k : α → β → Res γ), x.bind f = .ub → (x.bind fun a => (f a).bind (k a)) = .ub := by
      intro α β γ x f k hx
      cases x with
      | ok a => simp only [Res.bind] at hx ⊢; rw [hx]
      | throw => cases hx
      | ub => rfl
    by_cases h1 : ∃ v, (obs s)[h]? = some (some v)
    · obtain ⟨v1, h1⟩ := h1
      cases g with
      | none => exact absurd ⟨⟨v1, h1⟩, by simp⟩ hv
      | some g' =>
        obtain ⟨d1, hd1, hv1⟩ := get_of_obs h1
        have hdr : deref s h = .ok d1 := by unfold deref; rw [hd1]
        rw [hdr, Res.bind_ok, peek_ok hv1, Res.bind_ok]
        simp only
        refine bub _ _ _ (key g' fun v hc => hv ⟨⟨v1, h1⟩, ?_⟩)
        rintro _ ⟨⟩
        exact ⟨v, hc⟩
    · exact bub _ _ _ (key h fun v hc => h1 ⟨v, hc⟩)

/-- No tensors. -/
def St.init : St V := ⟨fun _ => none, 0, []⟩

theorem inv_init : Inv (St.init : St V) [] := ⟨by simp [St.init], by simp [St.init], fun _ _ => rfl⟩

theorem runAll_inv {ty : V → T} : ∀ (os : List (Op V R T)) (s : St V), Inv s [] → (∀ o ∈ os, o.Scoped) → ∀ s' rs, runAll ty os s = .ok (s', rs) → Inv s' []
  | [], s, hi, _, s', rs, h => by cases h; exact hi
  | o :: os, s, hi, hsc, s', rs, h => by
    simp only [runAll, Res.bind_eq_ok] at h
    obtain ⟨x, h1, y, h2, h3⟩ := h
    cases h3
    by_cases hv : o.Valid (obs s)
    · obtain ⟨s1, r, e1, e2, _⟩ := run_spec (ty := ty) hi o (hsc o (by simp)) hv
      rw [e1] at h1
      cases h1
      exact runAll_inv os s1 e2 (fun o ho => hsc o (by simp [ho])) _ _ h2
    · rw [run_invalid o hv] at h1
      cases h1

/-- **C29.** After any program on any number of tensors, any statement with valid arguments runs without undefined behaviour and changes none of the other tensors, whatever
the tasks do with their references. -/
theorem C29_isolation {ty : V → T} {os : List (Op V R T)} {o : Op V R T} (hsc : ∀ p ∈ os ++ [o], p.Scoped) {s : St V} {rs : List (Option R)}
    (hs : runAll ty os St.init = .ok (s, rs)) (hv : o.Valid (obs s)) :
    ∃ s' r, o.run ty s = .ok (s', r) ∧ ∀ k, k < (obs s).length → k ∉ o.targets → (obs s')[k]? = (obs s)[k]? := by
  obtain ⟨s', r, e1, _, e3, _⟩ := run_spec (ty := ty) (runAll_inv os _ inv_init (fun o ho => hsc o (by simp [ho])) _ _ hs) o (hsc o (by simp)) hv
  exact ⟨s', r, e1, e3⟩

theorem values {ty : V → T} : ∀ (os : List (Op V R T)) (s : St V), Inv s [] → (∀ o ∈ os, o.Scoped ∧ o.Fresh) → ∀ e rs, specAll ty os (obs s) = .ok (e, rs) →
    ∃ s', runAll ty os s = .ok (s', rs) ∧ obs s' = e
  | [], s, _, _, e, rs, h => by cases h; exact ⟨s, rfl, rfl⟩
  | o :: os, s, hi, hsc, e, rs, h => by
    simp only [specAll, Res.bind_eq_ok] at h
    obtain ⟨x, h1, y, h2, h3⟩ := h
    cases h3
    have hv : o.Valid (obs s) := by
      cases o with
      | decl => trivial
      | create h v => by_contra hc; simp only [Op.spec, Op.Valid] at h1 hc; rw [if_neg hc] at h1; cases h1
      | copy h g =>
        simp only [Op.spec] at h1
        cases e : (obs s)[g]? with
        | none => rw [e] at h1; cases h1
        | some p =>
          rw [e] at h1
          refine ⟨?_, (List.getElem?_eq_some_iff.1 e).1⟩
          by_contra hc
          simp only at h1
          rw [if_neg hc] at h1
          cases h1
      | move h g =>
        simp only [Op.spec] at h1
        cases e : (obs s)[g]? with
        | none => rw [e] at h1; cases h1
        | some p =>
          rw [e] at h1
          refine ⟨?_, (List.getElem?_eq_some_iff.1 e).1⟩
          by_contra hc
          simp only at h1
          rw [if_neg hc] at h1
          cases h1
      | destroy h => by_contra hc; simp only [Op.spec, Op.Valid] at h1 hc; rw [if_neg hc] at h1; cases h1
      | task nc t h g =>
        simp only [Op.spec] at h1
        split at h1
        · rename_i v1 e1
          exact ⟨⟨v1, e1⟩, by simp⟩
        · rename_i v1 g' e1
          split at h1
          · next v2 e2 => exact ⟨⟨v1, e1⟩, by rintro _ ⟨⟩; exact ⟨v2, e2⟩⟩
          · cases h1
        · cases h1
    obtain ⟨s1, r, e1, e2, _, e4⟩ := run_spec (ty := ty) hi o (hsc o (by simp)).1 hv
    have := e4 (hsc o (by simp)).2
    rw [h1] at this
    cases this
    obtain ⟨s2, f1, f2⟩ := values os s1 e2 (fun o ho => hsc o (by simp [ho])) _ _ h2
    exact ⟨s2, by simp only [runAll]; rw [e1, Res.bind_ok, f1, Res.bind_ok], f2⟩

/-- **C29.** A program with tensors that share storage gives the same values and results as the program in which every tensor has its own value, if no task reads the old storage after
`modifyData`. -/
theorem C29_values {ty : V → T} {os : List (Op V R T)} (hos : ∀ o ∈ os, o.Scoped ∧ o.Fresh) {e : List (Option V)} {rs : List (Option R)}
    (he : specAll ty os [] = .ok (e, rs)) : ∃ s, runAll ty os St.init = .ok (s, rs) ∧ obs s = e :=
  values os St.init inv_init hos e rs he

end

end Verif.Cow
