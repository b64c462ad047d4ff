import Verif.Store.CowC29

/-!
# The tasks of the library as programs with references (C29)

The shapes of the bodies of the overloads of `doTask` that write, with the arithmetic left open. All of them are covered by `C29_values`. One overload has none of these
shapes: `doTask(Mult<Cplx>,QDiag<Real>)` uses the pointer of a storage it has replaced (`C66_complex_counterexample`).
-/

namespace Verif.Cow

open Verif

section
variable {V R : Type*}

/-- Tasks that only read, such as `GetElt`, `NormNoScale`, `SumEls` (dense.cc:37-47 and others). -/
def readTask (f : V → R) : Entry V R := .const (.read1 fun v => .done (f v))

/-- `doTask(Mult,Dense&)`, `doTask(Conj,…&)`, `doTask(Order,Dense&)` and others that take a storage which is not `const` (dense.cc:430-440, diag.cc:292-297). -/
def inPlace (f : V → V) (r : R) : Entry V R := .nonconst (.readM fun v => .writeM (f v) (.done r))

/-- `doTask(SetElt)`, `doTask(ApplyIT)` and `doTask(Mult<Cplx>)` (dense.cc:49-75, dense.h:164-183, diag.h:157-177, scalar.h:128-172): new storage if the type changes, else in place. -/
def switchOrModify (switches : V → Bool) (conv f : V → V) (r : R) : Entry V R :=
  .const (.read1 fun v => if switches v then .new (conv v) (.readN fun w => .writeN (f w) (.done r)) else .modify (.readM fun w => .writeM (f w) (.done r)))

/-- `doTask(Fill)`, `doTask(MakeCplx)`, `doTask(TakeReal)` (diag.cc:266-276): new storage from the old. -/
def replaceTask (f : V → V) (r : R) : Entry V R := .const (.read1 fun v => .new (f v) (.done r))

/-- `doTask(PlusEQ)` (dense.cc:394-411, diag.cc:243-260, qdense.cc:551-665, scalar.h:281-300): nothing, new storage, or addition in place. -/
def plusEqTask (skip : V → Bool) (widen : V → V → Bool) (conv : V → V → V) (add : V → V → V) (r : R) : Entry V R :=
  .const (.read2 fun v2 => if skip v2 then .done r else .read1 fun v1 =>
    if widen v1 v2 then .new (conv v1 v2) (.readN fun w => .read2 fun v2 => .writeN (add w v2) (.done r))
    else .modify (.readM fun w => .read2 fun v2 => .writeM (add w v2) (.done r)))

/-- `doTask(ApplyIT,Scalar&)` (scalar.h:98-113): the same for a storage which is not `const`. -/
def switchOrModifyNC (switches : V → Bool) (conv f : V → V) (r : R) : Entry V R :=
  .nonconst (.readM fun v => if switches v then .new (conv v) (.readN fun w => .writeN (f w) (.done r)) else .modify (.readM fun w => .writeM (f w) (.done r)))

/-- `doTask(Contract)` (dense.cc:329-382, qdense.cc:670-748, combiner.cc:157-177, qcombiner.cc:300-345): new storage, or the storage of the first or second tensor when a
combiner has nothing to do. -/
def contractTask (left right : V → V → Bool) (f : V → V → V) (r : R) : Entry V R :=
  .const (.read1 fun v1 => .read2 fun v2 => if left v1 v2 then .done r else if right v1 v2 then .rtol (.done r) else .new (f v1 v2) (.done r))

/-- The shapes of tasks with one storage. -/
inductive Shape1 : Entry V R → Prop
  | read (f) : Shape1 (readTask f)
  | inPlace (f r) : Shape1 (inPlace f r)
  | switch (a b c r) : Shape1 (switchOrModify a b c r)
  | switchNC (a b c r) : Shape1 (switchOrModifyNC a b c r)
  | replace (f r) : Shape1 (replaceTask f r)
  | missing : Shape1 .missing

/-- The shapes of tasks with two storages. -/
inductive Shape2 : Entry V R → Prop
  | plusEq (a b c d r) : Shape2 (plusEqTask a b c d r)
  | contract (a b c r) : Shape2 (contractTask a b c r)
  | missing : Shape2 .missing

/-- The tasks of the library: one storage, or two of different tensors (`A += A` is handled before, itensor.cc:1258; contraction does not write in place). -/
def Lib {T : Type*} : Op V R T → Prop
  | .task _ t h g => match g with
    | none => ∀ t1, Shape1 (t t1 none)
    | some g => g ≠ h ∧ ∀ t1 t2, Shape2 (t t1 (some t2))
  | _ => True

theorem shape1_ok {en : Entry V R} (h : Shape1 en) (same : Bool) : en.Scoped false ∧ en.Fresh same := by
  cases h with
  | read f => exact ⟨fun _ => trivial, rfl, fun _ => trivial⟩
  | inPlace f r => exact ⟨⟨rfl, fun _ => ⟨rfl, trivial⟩⟩, fun _ => trivial⟩
  | switch a b c r =>
    refine ⟨fun v => ?_, rfl, fun v => ?_⟩
    · dsimp only
      split
      · exact ⟨rfl, fun _ => ⟨rfl, trivial⟩⟩
      · exact ⟨rfl, fun _ => ⟨rfl, trivial⟩⟩
    · dsimp only
      split
      · exact fun _ => trivial
      · exact fun _ => trivial
  | switchNC a b c r =>
    refine ⟨⟨rfl, fun v => ?_⟩, fun v => ?_⟩
    · dsimp only
      split
      · exact ⟨rfl, fun _ => ⟨rfl, trivial⟩⟩
      · exact ⟨rfl, fun _ => ⟨rfl, trivial⟩⟩
    · dsimp only
      split
      · exact fun _ => trivial
      · exact fun _ => trivial
  | replace f r => exact ⟨fun _ => trivial, rfl, fun _ => trivial⟩
  | missing => exact ⟨trivial, trivial⟩

theorem shape2_ok {en : Entry V R} (h : Shape2 en) : en.Scoped true ∧ en.Fresh false := by
  cases h with
  | plusEq a b c d r =>
    refine ⟨⟨rfl, fun v => ?_⟩, ⟨nofun, fun v => ?_⟩⟩
    · dsimp only
      split
      · trivial
      · intro w
        dsimp only
        split
        · exact ⟨rfl, fun _ => ⟨rfl, fun _ => ⟨rfl, trivial⟩⟩⟩
        · exact ⟨rfl, fun _ => ⟨rfl, fun _ => ⟨rfl, trivial⟩⟩⟩
    · dsimp only
      split
      · trivial
      · refine ⟨rfl, fun w => ?_⟩
        dsimp only
        split
        · exact fun _ => ⟨nofun, fun _ => trivial⟩
        · exact fun _ => ⟨nofun, fun _ => trivial⟩
  | contract a b c r =>
    refine ⟨fun v => ⟨rfl, fun w => ?_⟩, ⟨rfl, fun v => ⟨nofun, fun w => ?_⟩⟩⟩
    · dsimp only
      split
      · trivial
      · split
        · exact ⟨rfl, trivial⟩
        · trivial
    · dsimp only
      split
      · trivial
      · split <;> trivial
  | missing => exact ⟨trivial, trivial⟩

theorem lib_ok {T : Type*} {o : Op V R T} (h : Lib o) : o.Scoped ∧ o.Fresh := by
  cases o with
  | task nc t h' g =>
    cases g with
    | none =>
      refine ⟨fun t1 t2 ht => ?_, fun t1 t2 ht => ?_⟩
      · cases t2 with
        | some _ => cases ht
        | none => exact (shape1_ok (h t1) false).1
      · cases t2 with
        | some _ => cases ht
        | none => exact (shape1_ok (h t1) _).2
    | some g =>
      have hne : (some g == some h') = false := by simpa using h.1
      refine ⟨fun t1 t2 ht => ?_, fun t1 t2 ht => ?_⟩
      · cases t2 with
        | none => cases ht
        | some t2 => exact (shape2_ok (h.2 t1 t2)).1
      · cases t2 with
        | none => cases ht
        | some t2 =>
          rw [hne]
          exact (shape2_ok (h.2 t1 t2)).2
  | _ => exact ⟨trivial, trivial⟩

/-- **C29.** Any program of declarations, copies, moves, destructions and tasks of the library, of any arithmetic and choice of overloads, on any number of tensors
behaves as if every tensor had its own value. -/
theorem C29_library {T : Type*} {ty : V → T} {os : List (Op V R T)} (hos : ∀ o ∈ os, Lib o) {e : List (Option V)} {rs : List (Option R)}
    (he : specAll ty os [] = .ok (e, rs)) : ∃ s, runAll ty os St.init = .ok (s, rs) ∧ obs s = e :=
  C29_values (fun o ho => lib_ok (hos o ho)) he

end

/-- `getBlock(T,b)` (itensor_impl.h:635-656, qdense.cc:895-907): a reference into the storage of the tensor, made unique before. -/
def getRef {V : Type*} (s : St V) (h : Nat) : Res (Nat × St V) := modifyData s h

/-- **C29 is false of references kept by the user**: a block obtained with `getBlock` still refers to the storage after the tensor was copied; writing to it
changes the copy too. -/
theorem C29_reference_counterexample :
    ((runAll (R := Unit) (T := Unit) (fun _ => ()) [.decl, .decl, .create 0 (5 : Int)] St.init).bind fun x =>
      (getRef x.1 0).bind fun y => ((Op.copy 1 0 : Op Int Unit Unit).run (fun _ => ()) y.2).bind fun z =>
        (poke z.1 y.1 7).bind fun w => .ok (obs z.1, obs w)) = .ok ([some 5, some 5], [some 7, some 7]) := by
  decide +kernel

/-- The hypothesis that a task does not read the old storage after `modifyData` is needed: such a task gives different results for a shared storage. -/
example :
    let t : Unit → Option Unit → Entry Int Int := fun _ _ => .const (.modify (.writeM 9 (.read1 fun v => .done v)))
    ((runAll (fun _ => ()) [.decl, .decl, .create 0 (5 : Int), .task true t 0 none] St.init).map (·.2.getLast?)) = .ok (some (some 9)) ∧
    ((runAll (fun _ => ()) [.decl, .decl, .create 0 (5 : Int), .copy 1 0, .task true t 0 none] St.init).map (·.2.getLast?)) = .ok (some (some 5)) := by
  decide +kernel

/-- A program with copies, a change in place, a sum and a shared pointer from a contraction: the values are those of the program on values. -/
example : ∃ s, runAll (R := Nat) (T := Bool) (fun _ : Int => true) [.decl, .decl, .decl, .create 0 5, .copy 1 0, .task true (fun _ _ => inPlace (· * 2) 0) 1 none,
      .task true (fun _ _ => plusEqTask (fun _ => false) (fun _ _ => false) (fun v _ => v) (· + ·) 0) 0 (some 1),
      .create 2 0, .task true (fun _ _ => contractTask (fun _ _ => false) (fun _ _ => true) (fun v _ => v) 0) 2 (some 0),
      .task true (fun _ _ => inPlace (· - 1) 0) 0 none] St.init = .ok s ∧ obs s.1 = [some 14, some 10, some 15] := by
  have he : specAll (R := Nat) (T := Bool) (fun _ : Int => true) [.decl, .decl, .decl, .create 0 5, .copy 1 0, .task true (fun _ _ => inPlace (· * 2) 0) 1 none,
      .task true (fun _ _ => plusEqTask (fun _ => false) (fun _ _ => false) (fun v _ => v) (· + ·) 0) 0 (some 1),
      .create 2 0, .task true (fun _ _ => contractTask (fun _ _ => false) (fun _ _ => true) (fun v _ => v) 0) 2 (some 0),
      .task true (fun _ _ => inPlace (· - 1) 0) 0 none] [] =
      .ok ([some 14, some 10, some 15], [none, none, none, none, none, some 0, some 0, none, some 0, some 0]) := by decide +kernel
  obtain ⟨s, h1, h2⟩ := C29_library (by
    intro o ho
    simp only [List.mem_cons, List.not_mem_nil, or_false] at ho
    rcases ho with rfl | rfl | rfl | rfl | rfl | rfl | rfl | rfl | rfl | rfl
    · trivial
    · trivial
    · trivial
    · trivial
    · trivial
    · exact fun _ => .inPlace _ _
    · exact ⟨by decide, fun _ _ => .plusEq _ _ _ _ _⟩
    · trivial
    · exact ⟨by decide, fun _ _ => .contract _ _ _ _⟩
    · exact fun _ => .inPlace _ _) he
  exact ⟨_, h1, h2⟩

end Verif.Cow
