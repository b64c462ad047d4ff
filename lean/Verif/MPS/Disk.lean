import Verif.Base
import Mathlib.Logic.Function.Basic
import Mathlib.Tactic.Common

/-!
# A matrix product state that keeps its tensors on disk

`setSite`, `setBond`, `initWrite`, `doWrite` and `read` of `MPS` (mps.cc). Tensors are of an arbitrary type; `none` is the
default constructed tensor.
-/

namespace Verif.Disk

/-- The vector `A_[0..N+1]`, the files, the bond `atb_` that is in memory, and `do_write_`. A file holds a tensor, which may be default
constructed. mps.h:28-40 -/
structure State (T : Type*) where
  N : Nat
  A : Int → Option T
  file : Int → Option (Option T)
  atb : Int
  write : Bool

variable {T : Type*}

/-- A state made by a constructor. mps.cc:53-119 -/
def make (N : Nat) (t : Int → T) : State T := ⟨N, fun i => if 1 ≤ i ∧ i ≤ N then some (t i) else none, fun _ => none, 1, false⟩

/-- Bounds check of `A_.at(i)`. -/
def at' (s : State T) (i : Int) : Res Unit := if 0 ≤ i ∧ i < s.N + 2 then .ok () else .throw

/-- `if(A_.at(i)) { writeToFile(AFName(i),A_.at(i)); if(drop) A_.at(i) = ITensor(); }` -/
def flush (s : State T) (i : Int) (drop : Bool) : State T :=
  match s.A i with
  | some x => { s with A := if drop then Function.update s.A i none else s.A, file := Function.update s.file i (some (some x)) }
  | none => s

/-- `if(!A_.at(i)) readFromFile(AFName(i),A_.at(i))`: a file that does not exist is an error. mps.cc:459-467 -/
def load (s : State T) (i : Int) : Res (State T) :=
  match s.A i with
  | some _ => .ok s
  | none => match s.file i with
    | some x => .ok { s with A := Function.update s.A i x }
    | none => .throw

/-- `while(b > atb_)` (mps.cc:426-439); the first argument bounds the rounds, and is the exact number in `setBond`. -/
def upLoop (b : Int) : Nat → State T → Res (State T)
  | 0, s => .ok s
  | n + 1, s =>
    if b > s.atb then
      (at' s s.atb).bind fun _ => (at' s (s.atb + 1)).bind fun _ =>
        let s1 := flush (flush s s.atb true) (s.atb + 1) (s.atb + 1 ≠ b)
        upLoop b n { s1 with atb := s1.atb + 1 }
    else .ok s

/-- `while(b < atb_)` (mps.cc:440-453). -/
def downLoop (b : Int) : Nat → State T → Res (State T)
  | 0, s => .ok s
  | n + 1, s =>
    if b < s.atb then
      (at' s s.atb).bind fun _ => (at' s (s.atb + 1)).bind fun _ =>
        let s1 := flush (flush s s.atb (s.atb ≠ b + 1)) (s.atb + 1) true
        downLoop b n { s1 with atb := s1.atb - 1 }
    else .ok s

/-- `setBond(b)` (mps.cc:410-478). -/
def setBond (s : State T) (b : Int) : Res (State T) :=
  if b = s.atb then .ok s
  else if s.write = false then .ok { s with atb := b }
  else if b < 1 ∨ b ≥ s.N then .ok s
  else (upLoop b (b - s.atb).toNat s).bind fun s => (downLoop b (s.atb - b).toNat s).bind fun s =>
    (load s b).bind fun s => load s (b + 1)

/-- `setSite(j)` (mps.cc:480-507). -/
def setSite (s : State T) (j : Int) : Res (State T) :=
  if s.write = false then .ok { s with atb := if j > s.atb then j - 1 else j }
  else if j < 1 ∨ j > s.N then .ok s
  else if j < s.atb then setBond s j
  else if j > s.atb + 1 then setBond s (j - 1)
  else .ok s

/-- Sites are counted from the end when negative. -/
def fix (s : State T) (i : Int) : Int := if i < 0 then s.N + i + 1 else i

/-- `psi(i)` (mps.cc:295-301). -/
def get (s : State T) (i : Int) : Res (State T × Option T) :=
  (setSite s (fix s i)).bind fun s => (at' s (fix s i)).bind fun _ => .ok (s, s.A (fix s i))

/-- `psi.set(i,x)`, `psi.ref(i) = x` (mps.cc:303-311, mps.h:96). -/
def set (s : State T) (i : Int) (x : T) : Res (State T) :=
  (setSite s (fix s i)).bind fun s => (at' s (fix s i)).bind fun _ => .ok { s with A := Function.update s.A (fix s i) (some x) }

/-- The tensors `svdBond(b,AA,dir)` stores (mps_impl.h:26, 63-86): `A_[b]` and `A_[b+1]` without a check of the range. -/
def svdBond (s : State T) (b : Int) (x y : T) : Res (State T) :=
  (setBond s b).bind fun s =>
    if 0 ≤ b ∧ b + 1 < s.N + 2 then .ok { s with A := Function.update (Function.update s.A b (some x)) (b + 1) (some y) } else .ub

/-- `initWrite` (mps.cc:903-932): default constructed tensors are written; with `WriteAll` all, and only those at the current bond are
kept in memory. -/
def initWrite (s : State T) (all : Bool) : State T :=
  { s with
    write := true
    A := fun j => if all = true ∧ 0 ≤ j ∧ j < s.N + 2 ∧ (j < s.atb ∨ j > s.atb + 1) then none else s.A j
    file := fun j => if 0 ≤ j ∧ j < s.N + 2 then
      (match s.A j with
      | none => some none
      | some x => if all then some (some x) else none) else none }

/-- `read(dirname)` (mps.cc:378-393): all tensors from files, an error when one is missing. -/
def readAll (s : State T) : Res (State T) :=
  if (List.range (s.N + 2)).all (fun j => (s.file (j : Nat)).isSome) then
    .ok { s with A := fun j => if 0 ≤ j ∧ j < s.N + 2 then (s.file j).getD none else s.A j }
  else .throw

/-- `doWrite(val,{"WriteAll",all})` (mps.cc:335-349). The directory is removed when writing is turned off. -/
def doWrite (s : State T) (val all : Bool) : Res (State T) :=
  if val = s.write then .ok s
  else if val then .ok (initWrite s all)
  else (readAll s).bind fun s => .ok { s with write := false, file := fun _ => none }

/-- `dag()` (mps.h:110-116): all tensors, with no regard to writing; a default constructed tensor is an error (dotask.h:479). -/
def dag (conj : T → T) (s : State T) : Res (State T) :=
  if (List.range s.N).all (fun j => (s.A ((j : Nat) + 1)).isSome) then
    .ok { s with A := fun j => if 1 ≤ j ∧ j ≤ s.N then (s.A j).map conj else s.A j }
  else .throw

/-! ## The invariant -/

/-- The tensors are those of `cur`, in memory or in a file; those of the current bond are in memory. -/
structure Inv (cur : Int → T) (s : State T) : Prop where
  lo : 0 ≤ s.atb
  hi : s.atb ≤ s.N
  val : ∀ j : Int, 1 ≤ j → j ≤ s.N → s.A j = some (cur j) ∨ (s.write = true ∧ s.A j = none ∧ s.file j = some (some (cur j)))
  here : 1 ≤ s.atb → s.A s.atb = some (cur s.atb)
  next : s.atb + 1 ≤ s.N → s.A (s.atb + 1) = some (cur (s.atb + 1))

/-- The part of the invariant that the loops keep. -/
structure Pre (cur : Int → T) (s : State T) : Prop where
  lo : 0 ≤ s.atb
  hi : s.atb ≤ s.N
  write : s.write = true
  val : ∀ j : Int, 1 ≤ j → j ≤ s.N → s.A j = some (cur j) ∨ (s.A j = none ∧ s.file j = some (some (cur j)))

/-- All files exist and are up to date. -/
def Fresh (cur : Int → T) (s : State T) : Prop :=
  (∀ j : Int, 0 ≤ j → j < s.N + 2 → (s.file j).isSome) ∧ ∀ j : Int, 1 ≤ j → j ≤ s.N → s.file j = some (some (cur j))

theorem flush_spec {cur : Int → T} {s : State T} {i : Int} {d : Bool}
    (h : ∀ j : Int, 1 ≤ j → j ≤ s.N → s.A j = some (cur j) ∨ (s.A j = none ∧ s.file j = some (some (cur j)))) :
    (∀ j : Int, 1 ≤ j → j ≤ s.N → (flush s i d).A j = some (cur j) ∨ ((flush s i d).A j = none ∧ (flush s i d).file j = some (some (cur j)))) ∧
      (flush s i d).atb = s.atb ∧ (flush s i d).N = s.N ∧ (flush s i d).write = s.write ∧ (Fresh cur s → Fresh cur (flush s i d)) := by
  unfold flush
  cases hA : s.A i with
  | none => exact ⟨h, rfl, rfl, rfl, id⟩
  | some x =>
    refine ⟨fun j h1 h2 => ?_, rfl, rfl, rfl, fun f => ⟨fun j h1 h2 => ?_, fun j h1 h2 => ?_⟩⟩
    rotate_left
    · simp only
      by_cases e : j = i
      · subst e; simp
      · rw [Function.update_of_ne e]; exact f.1 j h1 h2
    · simp only
      by_cases e : j = i
      · subst e
        rcases h j h1 h2 with h | ⟨h, _⟩
        · rw [hA] at h; rw [Function.update_self, h]
        · rw [hA] at h; exact absurd h (by simp)
      · rw [Function.update_of_ne e]; exact f.2 j h1 h2
    by_cases e : j = i
    · subst e
      have hx : x = cur j := by
        rcases h j h1 h2 with h | ⟨h, _⟩
        · rw [hA] at h; exact Option.some.inj h
        · rw [hA] at h; exact absurd h (by simp)
      subst hx
      cases d
      · left; simpa using hA
      · right; simp
    · have := h j h1 h2
      cases d <;> simpa [e] using this

theorem flush_keep {s : State T} {i : Int} : (flush s i false).A = s.A := by
  unfold flush
  cases s.A i <;> simp

theorem flush_ne {s : State T} {i j : Int} {d : Bool} (h : j ≠ i) : (flush s i d).A j = s.A j := by
  unfold flush
  cases s.A i
  · rfl
  · cases d <;> simp [h]

theorem Pre.two {cur : Int → T} {s : State T} (h : Pre cur s) (i k : Int) (d e : Bool) :
    (∀ j : Int, 1 ≤ j → j ≤ s.N → (flush (flush s i d) k e).A j = some (cur j) ∨
      ((flush (flush s i d) k e).A j = none ∧ (flush (flush s i d) k e).file j = some (some (cur j)))) ∧
      (flush (flush s i d) k e).atb = s.atb ∧ (flush (flush s i d) k e).N = s.N ∧ (flush (flush s i d) k e).write = s.write ∧
      (Fresh cur s → Fresh cur (flush (flush s i d) k e)) := by
  obtain ⟨a, b, c, w, f⟩ := flush_spec (i := i) (d := d) h.val
  obtain ⟨a', b', c', w', f'⟩ := flush_spec (s := flush s i d) (i := k) (d := e) (cur := cur) (by rw [c]; exact a)
  rw [c] at a'
  exact ⟨a', b'.trans b, c'.trans c, w'.trans w, f' ∘ f⟩

theorem upLoop_spec {cur : Int → T} {b : Int} : ∀ (n : Nat) (s : State T), Pre cur s → b < s.N → n = (b - s.atb).toNat →
    ∃ s', upLoop b n s = .ok s' ∧ Pre cur s' ∧ s'.N = s.N ∧ s'.atb = max s.atb b ∧ (Fresh cur s → Fresh cur s') := by
  intro n
  induction n with
  | zero => intro s h hb hn; exact ⟨s, rfl, h, rfl, by omega, id⟩
  | succ n ih =>
    intro s h hb hn
    have h0 := h.lo
    have hi := h.hi
    rw [upLoop, if_pos (by omega)]
    have a1 : at' s s.atb = .ok () := by unfold at'; rw [if_pos (by omega)]
    have a2 : at' s (s.atb + 1) = .ok () := by unfold at'; rw [if_pos (by omega)]
    rw [a1, a2]
    simp only [Res.bind_ok]
    obtain ⟨v, e1, e2, e3, e4⟩ := h.two s.atb (s.atb + 1) true (s.atb + 1 ≠ b)
    obtain ⟨s', r, p, hN, ha, hf⟩ := ih { flush (flush s s.atb true) (s.atb + 1) (s.atb + 1 ≠ b) with
        atb := (flush (flush s s.atb true) (s.atb + 1) (s.atb + 1 ≠ b)).atb + 1 }
      ⟨by simp only [e1]; omega, by simp only [e1, e2]; omega, by simp only [e3]; exact h.write, by simp only [e2]; exact v⟩
      (by simp only [e2]; exact hb) (by simp only [e1]; omega)
    refine ⟨s', r, p, by rw [hN]; exact e2, ?_, fun f => hf (e4 f)⟩
    rw [ha]
    simp only [e1]
    omega

theorem downLoop_spec {cur : Int → T} {b : Int} (hb : 0 ≤ b) : ∀ (n : Nat) (s : State T), Pre cur s → n = (s.atb - b).toNat →
    ∃ s', downLoop b n s = .ok s' ∧ Pre cur s' ∧ s'.N = s.N ∧ s'.atb = min s.atb b ∧ (Fresh cur s → Fresh cur s') := by
  intro n
  induction n with
  | zero => intro s h hn; exact ⟨s, rfl, h, rfl, by omega, id⟩
  | succ n ih =>
    intro s h hn
    have h0 := h.lo
    have hi := h.hi
    rw [downLoop, if_pos (by omega)]
    have a1 : at' s s.atb = .ok () := by unfold at'; rw [if_pos (by omega)]
    have a2 : at' s (s.atb + 1) = .ok () := by unfold at'; rw [if_pos (by omega)]
    rw [a1, a2]
    simp only [Res.bind_ok]
    obtain ⟨v, e1, e2, e3, e4⟩ := h.two s.atb (s.atb + 1) (s.atb ≠ b + 1) true
    obtain ⟨s', r, p, hN, ha, hf⟩ := ih { flush (flush s s.atb (s.atb ≠ b + 1)) (s.atb + 1) true with
        atb := (flush (flush s s.atb (s.atb ≠ b + 1)) (s.atb + 1) true).atb - 1 }
      ⟨by simp only [e1]; omega, by simp only [e1, e2]; omega, by simp only [e3]; exact h.write, by simp only [e2]; exact v⟩
      (by simp only [e1]; omega)
    refine ⟨s', r, p, by rw [hN]; exact e2, ?_, fun f => hf (e4 f)⟩
    rw [ha]
    simp only [e1]
    omega

theorem load_spec {cur : Int → T} {s : State T} (h : Pre cur s) {i : Int} (h1 : 1 ≤ i) (h2 : i ≤ s.N) :
    ∃ s', load s i = .ok s' ∧ Pre cur s' ∧ s'.N = s.N ∧ s'.atb = s.atb ∧ s'.A i = some (cur i) ∧
      (∀ j, s.A j = some (cur j) → s'.A j = some (cur j)) ∧ (Fresh cur s → Fresh cur s') := by
  unfold load
  rcases h.val i h1 h2 with e | ⟨e, f⟩
  · rw [e]
    exact ⟨s, rfl, h, rfl, rfl, e, fun j hj => hj, id⟩
  · rw [e, f]
    have key : ∀ j, s.A j = some (cur j) → Function.update s.A i (some (cur i)) j = some (cur j) := by
      intro j hj
      by_cases e' : j = i
      · subst e'; simp
      · rw [Function.update_of_ne e']; exact hj
    refine ⟨_, rfl, ⟨h.lo, h.hi, h.write, fun j h1 h2 => ?_⟩, rfl, rfl, by simp, key, id⟩
    by_cases e' : j = i
    · subst e'; left; simp
    · simp only
      rw [Function.update_of_ne e']
      exact h.val j h1 h2

theorem Inv.pre {cur : Int → T} {s : State T} (h : Inv cur s) (hw : s.write = true) : Pre cur s :=
  ⟨h.lo, h.hi, hw, fun j h1 h2 => (h.val j h1 h2).imp id fun h => h.2⟩

theorem setBond_spec {cur : Int → T} {s : State T} (h : Inv cur s) {b : Int} (h1 : 1 ≤ b) (h2 : b < s.N) :
    ∃ s', setBond s b = .ok s' ∧ Inv cur s' ∧ s'.N = s.N ∧ s'.write = s.write ∧ s'.atb = b ∧ (Fresh cur s → Fresh cur s') := by
  unfold setBond
  by_cases e : b = s.atb
  · rw [if_pos e]; exact ⟨s, rfl, h, rfl, rfl, e.symm, id⟩
  · rw [if_neg e]
    cases hw : s.write with
    | false =>
      have all : ∀ j : Int, 1 ≤ j → j ≤ s.N → s.A j = some (cur j) := fun j h1 h2 => (h.val j h1 h2).resolve_right fun x => by
        simp [hw] at x
      rw [if_pos rfl]
      exact ⟨_, rfl, ⟨by simp only; omega, by simp only; omega, fun j h1 h2 => Or.inl (all j h1 h2), fun _ => all b h1 (by omega),
        fun _ => all (b + 1) (by omega) (by omega)⟩, rfl, rfl, rfl, id⟩
    | true =>
      rw [if_neg (by simp), if_neg (by omega)]
      obtain ⟨s1, e1, p1, n1, a1, f1⟩ := upLoop_spec _ s (h.pre hw) h2 rfl
      rw [e1]
      simp only [Res.bind_ok]
      obtain ⟨s2, e2, p2, n2, a2, f2⟩ := downLoop_spec (b := b) (by omega) _ s1 p1 rfl
      rw [e2]
      simp only [Res.bind_ok]
      obtain ⟨s3, e3, p3, n3, a3, l3, _, f3⟩ := load_spec p2 (i := b) h1 (by omega)
      rw [e3]
      simp only [Res.bind_ok]
      obtain ⟨s4, e4, p4, n4, a4, l4, k4, f4⟩ := load_spec p3 (i := b + 1) (by omega) (by omega)
      have ha : s4.atb = b := by omega
      refine ⟨s4, e4, ⟨p4.lo, p4.hi, fun j h1 h2 => (p4.val j h1 h2).imp id fun h => ⟨p4.write, h⟩, fun _ => ?_, fun _ => ?_⟩,
        by omega, p4.write, ha, f4 ∘ f3 ∘ f2 ∘ f1⟩
      · rw [ha]; exact k4 b l3
      · rw [ha]; exact l4

theorem setSite_spec {cur : Int → T} {s : State T} (h : Inv cur s) {j : Int} (h1 : 1 ≤ j) (h2 : j ≤ s.N) :
    ∃ s', setSite s j = .ok s' ∧ Inv cur s' ∧ s'.N = s.N ∧ s'.write = s.write ∧ (j = s'.atb ∨ j = s'.atb + 1) ∧
      (Fresh cur s → Fresh cur s') := by
  have h0 := h.lo
  have h3 := h.hi
  unfold setSite
  cases hw : s.write with
  | false =>
    have all : ∀ j : Int, 1 ≤ j → j ≤ s.N → s.A j = some (cur j) := fun j h1 h2 => (h.val j h1 h2).resolve_right fun x => by
      simp [hw] at x
    rw [if_pos rfl]
    refine ⟨_, rfl, ⟨?_, ?_, fun j h1 h2 => Or.inl (all j h1 h2), fun h => all _ h ?_, fun h => all _ ?_ h⟩, rfl, rfl, ?_, id⟩ <;>
      simp only <;> split <;> omega
  | true =>
    rw [if_neg (by simp), if_neg (by omega)]
    by_cases c1 : j < s.atb
    · rw [if_pos c1]
      obtain ⟨s', e, i, n, w, a, f⟩ := setBond_spec h h1 (b := j) (by omega)
      exact ⟨s', e, i, n, w.trans hw, Or.inl a.symm, f⟩
    · rw [if_neg c1]
      by_cases c2 : j > s.atb + 1
      · rw [if_pos c2]
        obtain ⟨s', e, i, n, w, a, f⟩ := setBond_spec h (b := j - 1) (by omega) (by omega)
        exact ⟨s', e, i, n, w.trans hw, Or.inr (by omega), f⟩
      · rw [if_neg c2]
        exact ⟨s, rfl, h, rfl, hw, by omega, id⟩

/-! ## Any sequence of calls -/

/-- A call. -/
inductive Call (T : Type*)
  | get (i : Int)
  | set (i : Int) (x : T)
  | svdBond (b : Int) (x y : T)
  | startWrite (all : Bool)

/-- The call, and what it returns. -/
def Call.run (s : State T) : Call T → Res (State T × Option (Option T))
  | .get i => (Disk.get s i).bind fun r => .ok (r.1, some r.2)
  | .set i x => (Disk.set s i x).bind fun s => .ok (s, none)
  | .svdBond b x y => (Disk.svdBond s b x y).bind fun s => .ok (s, none)
  | .startWrite all => (doWrite s true all).bind fun s => .ok (s, none)

/-- The call is on an existing site or bond. -/
def Call.Ok (N : Nat) : Call T → Prop
  | .get i => (1 ≤ i ∧ i ≤ N) ∨ (-(N : Int) ≤ i ∧ i ≤ -1)
  | .set i _ => (1 ≤ i ∧ i ≤ N) ∨ (-(N : Int) ≤ i ∧ i ≤ -1)
  | .svdBond b _ _ => 1 ≤ b ∧ b < N
  | .startWrite _ => True

/-- What the call does to a plain array of tensors. -/
def Call.spec (N : Nat) (t : Int → T) : Call T → (Int → T) × Option (Option T)
  | .get i => (t, some (some (t (if i < 0 then N + 1 + i else i))))
  | .set i x => (Function.update t (if i < 0 then N + 1 + i else i) x, none)
  | .svdBond b x y => (fun j => if j = b then x else if j = b + 1 then y else t j, none)
  | .startWrite _ => (t, none)

/-- A sequence of calls with everything they return. -/
def runs (s : State T) : List (Call T) → Res (State T × List (Option (Option T)))
  | [] => .ok (s, [])
  | c :: cs => (c.run s).bind fun r => (runs r.1 cs).bind fun q => .ok (q.1, r.2 :: q.2)

/-- The same on a plain array. -/
def specs (N : Nat) (t : Int → T) : List (Call T) → (Int → T) × List (Option (Option T))
  | [] => (t, [])
  | c :: cs => ((specs N (c.spec N t).1 cs).1, (c.spec N t).2 :: (specs N (c.spec N t).1 cs).2)

theorem Inv.change {cur : Int → T} {s : State T} (h : Inv cur s) {j : Int} {x : T} (hj : j = s.atb ∨ j = s.atb + 1) :
    Inv (Function.update cur j x) { s with A := Function.update s.A j (some x) } := by
  refine ⟨h.lo, h.hi, fun i h1 h2 => ?_, fun h1 => ?_, fun h1 => ?_⟩
  · simp only
    by_cases e : i = j
    · subst e; left; simp
    · rw [Function.update_of_ne e, Function.update_of_ne e]
      exact h.val i h1 h2
  · simp only
    by_cases e : s.atb = j
    · subst e; simp
    · rw [Function.update_of_ne e, Function.update_of_ne e]; exact h.here h1
  · simp only
    by_cases e : s.atb + 1 = j
    · subst e; simp
    · rw [Function.update_of_ne e, Function.update_of_ne e]; exact h.next h1

theorem initWrite_inv {cur : Int → T} {s : State T} (h : Inv cur s) (hw : s.write = false) (all : Bool) : Inv cur (initWrite s all) := by
  have hA : ∀ j : Int, 1 ≤ j → j ≤ s.N → s.A j = some (cur j) := fun j h1 h2 => (h.val j h1 h2).resolve_right fun x => by
    simp [hw] at x
  refine ⟨h.lo, h.hi, fun j h1 h2 => ?_, fun h1 => ?_, fun h1 => ?_⟩
  · simp only [initWrite] at h2 ⊢
    have := hA j h1 h2
    by_cases c : all = true ∧ 0 ≤ j ∧ j < s.N + 2 ∧ (j < s.atb ∨ j > s.atb + 1)
    · right
      rw [if_pos c, if_pos ⟨by omega, by omega⟩, this]
      simp [c.1]
    · left; rw [if_neg c]; exact this
  · simp only [initWrite] at h1 ⊢
    rw [if_neg (by omega)]; exact h.here h1
  · simp only [initWrite] at h1 ⊢
    rw [if_neg (by omega)]; exact h.next h1

theorem fix_eq {s : State T} {N : Nat} (hN : s.N = N) {i : Int} (hi : (1 ≤ i ∧ i ≤ N) ∨ (-(N : Int) ≤ i ∧ i ≤ -1)) :
    fix s i = (if i < 0 then (N : Int) + 1 + i else i) ∧ 1 ≤ fix s i ∧ fix s i ≤ N := by
  unfold fix
  rw [hN]
  split <;> omega

theorem call_spec {cur : Int → T} {s : State T} (h : Inv cur s) {c : Call T} (hc : c.Ok s.N) :
    ∃ s', c.run s = .ok (s', (c.spec s.N cur).2) ∧ Inv (c.spec s.N cur).1 s' ∧ s'.N = s.N := by
  cases c with
  | get i =>
    obtain ⟨e, h1, h2⟩ := fix_eq rfl hc
    obtain ⟨s', es, i', n, w, a, _⟩ := setSite_spec h h1 h2
    have hf : fix s' i = fix s i := by unfold fix; rw [n]
    refine ⟨s', ?_, i', n⟩
    simp only [Call.run, Disk.get, es, Res.bind_ok, hf]
    unfold at'
    rw [if_pos (by omega)]
    simp only [Res.bind_ok, Call.spec, ← e]
    rcases a with a | a
    · rw [a, i'.here (by omega)]
    · rw [a, i'.next (by omega)]
  | set i x =>
    obtain ⟨e, h1, h2⟩ := fix_eq rfl hc
    obtain ⟨s', es, i', n, w, a, _⟩ := setSite_spec h h1 h2
    have hf : fix s' i = fix s i := by unfold fix; rw [n]
    refine ⟨{ s' with A := Function.update s'.A (fix s i) (some x) }, ?_, ?_, n⟩
    · simp only [Call.run, Disk.set, es, Res.bind_ok, hf]
      unfold at'
      rw [if_pos (by omega)]
      rfl
    · simp only [Call.spec, ← e]
      exact i'.change a
  | svdBond b x y =>
    obtain ⟨h1, h2⟩ := hc
    obtain ⟨s', es, i', n, w, a, _⟩ := setBond_spec h h1 h2
    refine ⟨{ s' with A := Function.update (Function.update s'.A b (some x)) (b + 1) (some y) }, ?_, ?_, n⟩
    · simp only [Call.run, Disk.svdBond, es, Res.bind_ok]
      rw [if_pos (by omega)]
      rfl
    · have := (i'.change (j := b) (x := x) (Or.inl a.symm)).change (j := b + 1) (x := y) (Or.inr (by simp [a]))
      convert this using 1
      funext j
      simp only [Call.spec, Function.update_apply]
      by_cases c1 : j = b
      · rw [if_pos c1, if_neg (by omega), if_pos c1]
      · by_cases c2 : j = b + 1
        · rw [if_neg c1, if_pos c2, if_pos c2]
        · rw [if_neg c1, if_neg c2, if_neg c2, if_neg c1]
  | startWrite all =>
    simp only [Call.run, doWrite, Call.spec]
    cases hw : s.write with
    | true =>
      rw [if_pos rfl]
      exact ⟨s, rfl, h, rfl⟩
    | false =>
      rw [if_neg (by simp), if_pos trivial]
      exact ⟨_, rfl, initWrite_inv h hw all, rfl⟩

theorem make_inv {N : Nat} (hN : 1 ≤ N) (t : Int → T) : Inv t (make N t) := by
  refine ⟨by simp [make], by simp only [make]; omega, fun j h1 h2 => Or.inl ?_, fun h1 => ?_, fun h1 => ?_⟩
  · simp only [make] at h2 ⊢; rw [if_pos ⟨h1, h2⟩]
  · simp only [make]; rw [if_pos (by omega)]
  · simp only [make] at h1 ⊢; rw [if_pos (by omega)]

/-- C41. Any sequence of reading sites, storing tensors (also by `svdBond`) and turning on writing to disk, in any order, behaves like
an array: every read returns the tensor last stored. -/
theorem C41_array {N : Nat} (hN : 1 ≤ N) (t : Int → T) (cs : List (Call T)) (hc : ∀ c ∈ cs, c.Ok N) :
    ∃ s, runs (make N t) cs = .ok (s, (specs N t cs).2) ∧
      ∀ j : Int, 1 ≤ j → j ≤ N → ∃ s', get s j = .ok (s', some ((specs N t cs).1 j)) := by
  have key : ∀ (cs : List (Call T)) (s : State T) (cur : Int → T), Inv cur s → s.N = N → (∀ c ∈ cs, c.Ok N) →
      ∃ s', runs s cs = .ok (s', (specs N cur cs).2) ∧ Inv (specs N cur cs).1 s' ∧ s'.N = N := by
    intro cs
    induction cs with
    | nil => intro s cur h n _; exact ⟨s, rfl, h, n⟩
    | cons c cs ih =>
      intro s cur h n hc
      obtain ⟨s1, e1, i1, n1⟩ := call_spec h (c := c) (by rw [n]; exact hc c (by simp))
      rw [n] at e1 i1 n1
      obtain ⟨s2, e2, i2, n2⟩ := ih s1 _ i1 n1 fun x hx => hc x (by simp [hx])
      refine ⟨s2, ?_, i2, n2⟩
      rw [runs, e1]
      simp only [Res.bind_ok]
      rw [e2]
      rfl
  obtain ⟨s, e, i, n⟩ := key cs _ _ (make_inv hN t) rfl hc
  refine ⟨s, e, fun j h1 h2 => ?_⟩
  obtain ⟨s', e', _⟩ := call_spec i (c := .get j) (by rw [n]; exact Or.inl ⟨h1, h2⟩)
  simp only [Call.run, Res.bind_eq_ok] at e'
  obtain ⟨r, hr, e'⟩ := e'
  simp only [Call.spec, Res.ok.injEq, Prod.mk.injEq, Option.some.injEq] at e'
  rw [if_neg (by omega)] at e'
  refine ⟨s', ?_⟩
  rw [hr, ← e'.1, ← e'.2]

/-! ## Turning writing off -/

theorem initWrite_fresh {cur : Int → T} {s : State T} (h : Inv cur s) (hw : s.write = false) : Fresh cur (initWrite s true) := by
  have hA : ∀ j : Int, 1 ≤ j → j ≤ s.N → s.A j = some (cur j) := fun j h1 h2 => (h.val j h1 h2).resolve_right fun x => by
    simp [hw] at x
  refine ⟨fun j h1 h2 => ?_, fun j h1 h2 => ?_⟩
  · simp only [initWrite] at h2 ⊢
    rw [if_pos ⟨h1, h2⟩]
    cases s.A j <;> simp
  · simp only [initWrite] at h2 ⊢
    rw [if_pos ⟨by omega, by omega⟩, hA j h1 h2]
    simp

/-- C41, in part. When writing was turned on with `WriteAll` and sites were only read since, turning it off gives the tensors back.
Missing: any change of a tensor in between, and writing without `WriteAll` (see the counterexamples). -/
theorem C41_off_partial {N : Nat} (hN : 1 ≤ N) (t : Int → T) (cs : List (Call T)) (hc : ∀ c ∈ cs, c.Ok N)
    (hw : ∀ a, Call.startWrite a ∉ cs) (rs : List Int) (hr : ∀ i ∈ rs, 1 ≤ i ∧ i ≤ N) :
    ∃ s v s', runs (make N t) (cs ++ Call.startWrite true :: rs.map Call.get) = .ok (s, v) ∧ doWrite s false false = .ok s' ∧
      ∀ j : Int, 1 ≤ j → j ≤ N → s'.A j = some ((specs N t cs).1 j) := by
  have A : ∀ (cs : List (Call T)) (s : State T) (cur : Int → T), Inv cur s → s.N = N → s.write = false → (∀ c ∈ cs, c.Ok N) →
      (∀ a, Call.startWrite a ∉ cs) →
      ∃ s', runs s cs = .ok (s', (specs N cur cs).2) ∧ Inv (specs N cur cs).1 s' ∧ s'.N = N ∧ s'.write = false := by
    intro cs
    induction cs with
    | nil => intro s cur h n w _ _; exact ⟨s, rfl, h, n, w⟩
    | cons c cs ih =>
      intro s cur h n w hc hw
      obtain ⟨s1, e1, i1, n1⟩ := call_spec h (c := c) (by rw [n]; exact hc c (by simp))
      rw [n] at e1 i1 n1
      have w1 : s1.write = false := by
        have site : ∀ {j s'}, setSite s j = .ok s' → s'.write = false := by
          intro j s' e
          unfold setSite at e
          rw [if_pos w] at e
          cases e
          exact w
        cases c with
        | get i =>
          simp only [Call.run, get, Res.bind_eq_ok, Res.ok.injEq] at e1
          obtain ⟨a, ⟨b, hb, _, _, e⟩, e'⟩ := e1
          subst e
          simp only [Prod.mk.injEq] at e'
          rw [← e'.1]
          exact site hb
        | set i x =>
          simp only [Call.run, set, Res.bind_eq_ok, Res.ok.injEq] at e1
          obtain ⟨a, ⟨b, hb, _, _, e⟩, e'⟩ := e1
          subst e
          simp only [Prod.mk.injEq] at e'
          rw [← e'.1]
          exact (site hb : b.write = false)
        | svdBond b x y =>
          simp only [Call.run, svdBond, Res.bind_eq_ok, Res.ok.injEq] at e1
          obtain ⟨a, ⟨q, hb, e⟩, e'⟩ := e1
          simp only [Prod.mk.injEq] at e'
          rw [← e'.1]
          have hq : q.write = false := by
            unfold setBond at hb
            split at hb
            · cases hb; exact w
            · cases hb; exact w
          split at e
          · cases e; exact hq
          · cases e
        | startWrite a => exact absurd (List.mem_cons_self ..) (hw a)
      obtain ⟨s2, e2, i2, n2, w2⟩ := ih s1 _ i1 n1 w1 (fun x hx => hc x (by simp [hx])) (fun a ha => hw a (by simp [ha]))
      refine ⟨s2, ?_, i2, n2, w2⟩
      rw [runs, e1]
      simp only [Res.bind_ok]
      rw [e2]
      rfl
  have B : ∀ (rs : List Int) (s : State T) (cur : Int → T), Inv cur s → Fresh cur s → s.N = N → s.write = true → (∀ i ∈ rs, 1 ≤ i ∧ i ≤ N) →
      ∃ s' v, runs s (rs.map Call.get) = .ok (s', v) ∧ Inv cur s' ∧ Fresh cur s' ∧ s'.N = N ∧ s'.write = true := by
    intro rs
    induction rs with
    | nil => intro s cur h f n w _; exact ⟨s, [], rfl, h, f, n, w⟩
    | cons i rs ih =>
      intro s cur h f n w hr
      obtain ⟨h1, h2⟩ := hr i (by simp)
      obtain ⟨s1, e1, i1, n1, w1, _, f1⟩ := setSite_spec h (j := i) h1 (by omega)
      obtain ⟨s2, v, e2, r⟩ := ih s1 cur i1 (f1 f) (by omega) (w1.trans w) fun x hx => hr x (by simp [hx])
      have hf : fix s i = i := by unfold fix; rw [if_neg (by omega)]
      have hf1 : fix s1 i = i := by unfold fix; rw [if_neg (by omega)]
      refine ⟨s2, some (s1.A i) :: v, ?_, r⟩
      simp only [List.map_cons, runs, Call.run, get, hf, e1, Res.bind_ok, hf1]
      unfold at'
      rw [if_pos (by omega)]
      simp only [Res.bind_ok]
      rw [e2]
      rfl
  have app : ∀ (xs ys : List (Call T)) (s s1 s2 : State T) (v w), runs s xs = .ok (s1, v) → runs s1 ys = .ok (s2, w) →
      runs s (xs ++ ys) = .ok (s2, v ++ w) := by
    intro xs
    induction xs with
    | nil => intro ys s s1 s2 v w h1 h2; cases h1; exact h2
    | cons x xs ih =>
      intro ys s s1 s2 v w h1 h2
      simp only [runs, Res.bind_eq_ok, Res.ok.injEq, Prod.mk.injEq] at h1
      obtain ⟨r, hr, q, hq, e, e'⟩ := h1
      have := ih ys r.1 q.1 s2 q.2 w hq (by rw [e]; exact h2)
      simp only [List.cons_append, runs, hr, Res.bind_ok, this]
      rw [← e']
      rfl
  obtain ⟨s1, e1, i1, n1, w1⟩ := A cs _ _ (make_inv hN t) rfl rfl hc hw
  have i2 := initWrite_inv i1 w1 true
  have f2 := initWrite_fresh i1 w1
  obtain ⟨s3, v, e3, i3, f3, n3, w3⟩ := B rs (initWrite s1 true) _ i2 f2 n1 rfl hr
  have e2 : runs s1 (Call.startWrite true :: rs.map Call.get) = .ok (s3, none :: v) := by
    simp only [runs, Call.run, doWrite]
    rw [w1, if_neg (by simp), if_pos trivial]
    simp only [Res.bind_ok]
    rw [e3]
    rfl
  have e4 : readAll s3 = .ok { s3 with A := fun j => if 0 ≤ j ∧ j < s3.N + 2 then (s3.file j).getD none else s3.A j } := by
    unfold readAll
    rw [if_pos]
    rw [List.all_eq_true]
    intro j hj
    have := List.mem_range.mp hj
    exact f3.1 j (by omega) (by omega)
  refine ⟨s3, _, ⟨s3.N, fun j => if 0 ≤ j ∧ j < s3.N + 2 then (s3.file j).getD none else s3.A j, fun _ => none, s3.atb, false⟩, app _ _ _ _ _ _ _ e1 e2, ?_, ?_⟩
  · unfold doWrite
    rw [w3, if_neg (by simp), if_neg (by simp), e4]
    rfl
  · intro j h1 h2
    simp only
    rw [if_pos (by omega), f3.2 j h1 (by omega)]
    rfl

/-! ## Concrete runs -/

/-- Four sites. -/
def four : State Nat := make 4 fun i => 10 * i.toNat

/-- A sequence of calls that moves to and fro and changes tensors. -/
def demo : List (Call Nat) := [.get 3, .startWrite false, .get 4, .set 1 7, .get (-1), .svdBond 2 8 9, .get 1, .get 3]

example : (runs four demo).map (·.2) = .ok [some (some 30), none, some (some 40), none, some (some 40), none, some (some 7), some (some 9)] := by
  decide +kernel

example := C41_array (by decide : 1 ≤ 4) (fun i => 10 * i.toNat) demo (by
  intro c hc
  simp only [demo, List.mem_cons, List.not_mem_nil, or_false] at hc
  rcases hc with rfl | rfl | rfl | rfl | rfl | rfl | rfl | rfl <;> simp [Call.Ok])

example := C41_off_partial (by decide : 1 ≤ 4) (fun i => 10 * i.toNat) [.set 2 5] (by simp [Call.Ok]) (by simp) [4, 1, 3] (by simp)

/-- C41. Turning writing off reads all tensors from files: without `WriteAll` there are none of those that were not moved out of
memory, which is an error. -/
theorem C41_off_counterexample : (doWrite four true false).bind (fun s => (doWrite s false false).map fun s => s.N) = .throw := by
  decide +kernel

/-- C41. A tensor that is in memory is not written when writing is turned off: the value stored last is lost. -/
theorem C41_stale_counterexample :
    ((runs four [.startWrite true, .set 1 7, .get 1]).bind fun r => (doWrite r.1 false false).bind fun s => .ok (r.2, s.A 1)) =
      .ok ([none, none, some (some 7)], some 10) := by
  decide +kernel

/-- C41. `dag()` of a state with tensors on disk is an error. -/
theorem C41_dag_counterexample : (doWrite four true true).bind (fun s => (dag id s).map fun s => s.N) = .throw ∧
    (dag id four).map (fun s => s.N) = .ok 4 := by
  constructor <;> decide +kernel

end Verif.Disk
