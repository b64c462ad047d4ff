import Verif.Util.Args
import Verif.Util.StreamProps

/-!
# `Args` written to a stream and read back (util/args.cc:140-160, 456-466; util/readwrite.h:265-316), property C118

A number is the 64 bits of a double, as in `Stream.lean`. The string member `sval_` of a value which is not a string and the number `rval_`
of a string are not in the model `Val`, so that a value left over in them is not seen; `Args` does not show them either (args.h:264-277).
-/

namespace Verif.Util.Args

open Verif InfArray Verif.Stream

/-- The bits of 1.0 and of `NAN`. -/
def oneBits : Real64 := 0x3FF0000000000000
def nanBits : Real64 := 0x7FF8000000000000

/-- `bool(rval_)` (args.h:265): false for 0.0 and for -0.0. -/
def truth (r : Real64) : Bool := r != 0 && r != 0x8000000000000000

/-- `type_` as a number (args.h:230). -/
def typeCode : Value Real64 → Int
  | .bool _ => 0
  | .num _ => 1
  | .str _ => 2
  | .none => 3

/-- `sval_` or `rval_` (args.cc:156-159); for a boolean `rval_` is 1.0 or 0.0 (args.cc:57-79), for an empty value it is `NAN` (args.cc:49-55). -/
def writePayload : Value Real64 → Bytes
  | .bool b => writeReal (if b then oneBits else 0)
  | .num r => writeReal r
  | .str t => writeString t
  | .none => writeReal nanBits

/-- `Val::write` (args.cc:151-160); an enum has four bytes. -/
def writeVal (v : Val Real64) : Bytes := writeString v.name ++ (writeI 4 (typeCode v.value) ++ writePayload v.value)

/-- The end of `Val::read` (args.cc:145-148), by `type_`. A number which is no `Type` counts as undefined. -/
def readPayload (code : Int) : Reader (Value Real64) :=
  if code = 2 then readString.bind fun t => .pure (.str t)
  else readReal.bind fun r =>
    if code = 0 then .pure (.bool (truth r))
    else if code = 1 then .pure (.num r)
    else if code = 3 then .pure .none
    else fun _ => .ub

/-- `Val::read` (args.cc:140-149). All members which are seen are replaced. -/
def readVal : Reader (Val Real64) :=
  readString.bind fun n => (readI 4).bind fun c => (readPayload c).bind fun v => .pure ⟨n, v⟩

/-- `for(auto& el : ia) itensor::read(s,el)` (readwrite.h:269-272), from element `i` on. -/
def readInto (s : Store Real64) : Nat → Nat → Reader (Store Real64)
  | _, 0 => .pure s
  | i, n + 1 => readVal.bind fun v bs => (InfArray.set N s i v).bind fun s' => readInto s' (i + 1) n bs

/-- `Args::read` (args.cc:456-460, readwrite.h:282-290) into the object `s`: its array is resized and then read element by element. -/
def readArgs (s : Store Real64) : Reader (Store Real64) :=
  (readU 8).bind fun n bs => (InfArray.resize N s n).bind fun s' => readInto s' 0 n bs

/-- `Args::write` (args.cc:462-466, readwrite.h:309-316). -/
def writeArgs (s : Store Real64) : Res Bytes := (elems N s).bind fun l => .ok (writeU 8 l.length ++ writeMany writeVal l)

/-- Names and texts have a length which fits into eight bytes. -/
def ValOK (v : Val Real64) : Prop := v.name.length < 256 ^ 8 ∧ ∀ t, v.value = .str t → t.length < 256 ^ 8

theorem rt_val : RT writeVal readVal ValOK := by
  rintro ⟨n, v⟩ ⟨hn, ht⟩ rest
  have hc : IRange 4 (typeCode v) := by cases v <;> simp [IRange, typeCode]
  have hp : readPayload (typeCode v) (writePayload v ++ rest) = .ok (v, rest) := by
    cases v with
    | bool b =>
      have e : readPayload (typeCode (.bool b)) = readReal.bind fun r => .pure (.bool (truth r)) := rfl
      rw [e, writePayload, bind_run (rt_real _ trivial _)]
      cases b <;> rfl
    | num r =>
      have e : readPayload (typeCode (.num r)) = readReal.bind fun r => .pure (.num r) := rfl
      rw [e, writePayload, bind_run (rt_real _ trivial _)]
      rfl
    | str t =>
      have e : readPayload (typeCode (.str t)) = readString.bind fun t => .pure (.str t) := rfl
      rw [e, writePayload, bind_run (rt_string _ (ht t rfl) _)]
      rfl
    | none =>
      have e : readPayload (typeCode .none) = readReal.bind fun _ => .pure .none := rfl
      rw [e, writePayload, bind_run (rt_real _ trivial _)]
      rfl
  rw [readVal, writeVal, List.append_assoc, bind_run (rt_string _ hn _), List.append_assoc, bind_run (rt_I 4 _ hc _), bind_run hp]
  rfl

theorem readInto_run : ∀ (l p q : List (Val Real64)) (s : Store Real64) (rest : Bytes), Rep N s (p ++ q) → l.length = q.length →
    (∀ v ∈ l, ValOK v) → ∃ s', readInto s p.length l.length (writeMany writeVal l ++ rest) = .ok (s', rest) ∧ Rep N s' (p ++ l) := by
  intro l
  induction l with
  | nil =>
    intro p q s rest h hl _
    obtain rfl : q = [] := List.length_eq_zero_iff.1 hl.symm
    exact ⟨s, rfl, h⟩
  | cons v l ih =>
    intro p q s rest h hl hv
    cases q with
    | nil => simp at hl
    | cons w q =>
      obtain ⟨s1, e1, r1⟩ := h.set (i := p.length) (by simp) v
      rw [List.set_append_right _ _ (Nat.le_refl _), Nat.sub_self, List.set_cons_zero] at r1
      obtain ⟨s2, e2, r2⟩ := ih (p ++ [v]) q s1 rest (by simpa using r1) (by simpa using hl) fun x hx => hv x (by simp [hx])
      refine ⟨s2, ?_, by simpa using r2⟩
      have e : writeMany writeVal (v :: l) ++ rest = writeVal v ++ (writeMany writeVal l ++ rest) := by simp [writeMany]
      rw [List.length_cons, readInto, e, bind_run (rt_val v (hv v (by simp)) _), e1, Res.bind_ok]
      simpa using e2

/-- **C118.** An `Args` with any options, written and read back into an `Args` which had any other options, gives every option the value it had
and no other option, and takes just the bytes written. -/
theorem C118_roundtrip {s old : Store Real64} {ks ko : List OptName} {m mo : OptName → Option (Value Real64)} (h : MapRep s ks m)
    (ho : MapRep old ko mo) (hk : ks.length < 256 ^ 8) (hn : ∀ n ∈ ks, n.length < 256 ^ 8)
    (ht : ∀ n t, m n = some (.str t) → t.length < 256 ^ 8) :
    ∃ bytes, writeArgs s = .ok bytes ∧ ∀ rest, ∃ s', readArgs old (bytes ++ rest) = .ok (s', rest) ∧ MapRep s' ks m := by
  obtain ⟨⟨l, hl, hlk, hm⟩, hnd⟩ := h
  obtain ⟨⟨lo, hlo, _, _⟩, _⟩ := ho
  have hll : l.length = ks.length := by rw [← hlk]; simp
  have hok : ∀ v ∈ l, ValOK v := by
    intro v hv
    refine ⟨hn _ (by rw [← hlk]; exact List.mem_map_of_mem hv), fun t e => ht v.name t ?_⟩
    have hnd' : (l.map (·.name)).Nodup := by rw [hlk]; exact hnd
    rw [← hm]
    have : (l.find? fun x => x.name == v.name) = some v := by
      cases hf : l.find? fun x => x.name == v.name with
      | none => exact absurd (List.mem_map_of_mem hv) (find_map.1 hf)
      | some w =>
        have hw := List.mem_of_find?_eq_some hf
        have he : w.name = v.name := by simpa using List.find?_some hf
        rw [List.inj_on_of_nodup_map hnd' hw hv he]
    rw [this]
    simp [e]
  refine ⟨_, by rw [writeArgs, hl.elems, Res.bind_ok], fun rest => ?_⟩
  obtain ⟨s1, l1, e1, r1, n1, _⟩ := hlo.resize l.length
  obtain ⟨s2, e2, r2⟩ := readInto_run l [] l1 s1 rest r1 n1.symm hok
  refine ⟨s2, ?_, ⟨l, r2, hlk, hm⟩, hnd⟩
  rw [readArgs, List.append_assoc, bind_run (rt_U 8 _ (by omega) _), e1, Res.bind_ok]
  exact e2

/-- Options `A = "x"` and `B = false`, read into an `Args` which had `C = true`. -/
example : ∃ s1 s old bytes s' ks m, add (empty default) [65] (.str [120]) = .ok s1 ∧ add s1 [66] (.bool false) = .ok s ∧
    add (empty default) [67] (.bool true) = .ok old ∧ writeArgs s = .ok bytes ∧ readArgs old (bytes ++ [7]) = .ok (s', [7]) ∧
    MapRep s' ks m ∧ m [65] = some (.str [120]) ∧ m [66] = some (.bool false) ∧ m [67] = none := by
  have cA : chopSpaceEq [65] = [65] := by decide
  have cB : chopSpaceEq [66] = [66] := by decide
  obtain ⟨s1, e1, r1⟩ := (mapRep_empty (R := Real64) default).addVal (Val.make [65] (.str [120])) (by simp [Val.make])
  obtain ⟨s, e2, r2⟩ := r1.addVal (Val.make [66] (.bool false)) (by simp [Val.make])
  obtain ⟨old, e3, r3⟩ := (mapRep_empty (R := Real64) default).addVal (Val.make [67] (.bool true)) (by simp [Val.make])
  simp only [Val.make, cA, cB] at r2
  obtain ⟨bytes, w, hr⟩ := C118_roundtrip r2 r3 (by simp) (by simp) (by
    intro n t
    split
    · simp
    · split
      · intro h; cases h; simp
      · simp)
  obtain ⟨s', e4, r4⟩ := hr [7]
  exact ⟨s1, s, old, bytes, s', _, _, e1, e2, e3, w, e4, r4, by simp, by simp, by simp⟩

end Verif.Util.Args
