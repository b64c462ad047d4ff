import Verif.Base
import Verif.Tensor.Gemm

/-!
# Element-wise operations on diagonal storage

Model of the tasks of `Diag` (`/repo/itensor/itdata/diag.h`, `diag.cc`) and `QDiag` (`/repo/itensor/itdata/qdiag.h`, `qdiag.cc`) which
act on elements one by one: scaling, conjugation, real and imaginary part, `apply`, `fill`, and those which sum over elements:
`NormNoScale` and `SumEls`. Property C66.

Simplifications. Real numbers are a commutative ring `K`, complex numbers are pairs. The template argument of the storage is the field
`cplx`; a real storage has imaginary parts zero. No scale factors (`USESCALE` is off by default). The norm is modelled by its square, since the
code takes square roots of sums of squares. `assert` is off (`-DNDEBUG` is among the default compiler options).
-/

namespace Verif.DiagOps

open Verif.Tensor (Cx)

variable {K : Type*} [CommRing K]

/-- `Diag<T>` (diag.h:30-75) or `QDiag<T>` (qdiag.h:29-72). -/
structure Sto (K : Type*) [CommRing K] where
  cplx : Bool
  store : List (Cx K)
  val : Cx K
  length : Nat
  deriving DecidableEq

/-- `allSame()` (diag.h:80-81, qdiag.h:76-77). -/
def Sto.allSame (s : Sto K) : Bool := s.store.isEmpty

/-- `std::norm`. -/
def sq (z : Cx K) : K := z.re * z.re + z.im * z.im

/-- `std::conj`. -/
def conj (z : Cx K) : Cx K := ⟨z.re, -z.im⟩

/-- A function object given to `apply`: what it does with real and complex arguments, each with whether the result is complex;
`none` if it does not take such an argument (task_types.h:142-236). -/
structure Fn (K : Type*) [CommRing K] where
  onReal : Option (Bool × (Cx K → Cx K))
  onCplx : Option (Bool × (Cx K → Cx K))

/-- The overload used for the storage type. -/
def Fn.of (f : Fn K) (cplx : Bool) : Option (Bool × (Cx K → Cx K)) := if cplx then f.onCplx else f.onReal

/-- The operations of an ITensor. -/
inductive Op (K : Type*) [CommRing K] where
  | scale (z : Cx K)
  | conj
  | re
  | im
  | apply (f : Fn K)
  | fill (z : Cx K)

namespace Diag

/-- `doTask(GetElt,Diag)` (diag.cc:14-26). -/
def getElt (s : Sto K) (inds : List Nat) : Res (Cx K) :=
  let first := inds.headD 0
  if inds.any (· != first) then .ok 0
  else if s.allSame then .ok s.val
  else match s.store[first]? with
    | some x => .ok x
    | none => .throw

/-- `doMult` (diag.cc:280-285). -/
def doMult (z : Cx K) (s : Sto K) : Sto K := { s with val := s.val * z, store := s.store.map (· * z) }

/-- `operator*=(Cplx)` (itensor.cc:1030-1037) with `doTask(Mult,Diag)` (diag.cc:287-303). -/
def scale [DecidableEq K] (z : Cx K) (s : Sto K) : Res (Sto K) :=
  if z.im = 0 then .ok (doMult ⟨z.re, 0⟩ s)
  else if s.cplx then .ok (doMult z s)
  else .ok (doMult z { s with cplx := true })

/-- `doTask(Conj,Diag)` (diag.cc:316-330). -/
def conjT (s : Sto K) : Res (Sto K) :=
  if !s.cplx then .ok s
  else if s.allSame then .ok { s with val := conj s.val }
  else .ok { s with store := s.store.map conj }

/-- `doTask(TakeReal,Diag)` (diag.cc:333-348). -/
def takeReal (s : Sto K) : Res (Sto K) :=
  if !s.cplx then .ok s
  else if s.allSame then .ok ⟨false, [], ⟨s.val.re, 0⟩, s.length⟩
  else .ok ⟨false, s.store.map fun z => ⟨z.re, 0⟩, 0, s.store.length⟩

/-- `doTask(TakeImag,Diag)` (diag.cc:350-369). -/
def takeImag (s : Sto K) : Res (Sto K) :=
  if !s.cplx then .ok { s with val := 0, store := s.store.map fun _ => 0 }
  else if s.allSame then .ok ⟨false, [], ⟨s.val.im, 0⟩, s.length⟩
  else .ok ⟨false, s.store.map fun z => ⟨z.im, 0⟩, 0, s.store.length⟩

/-- `doTask(ApplyIT,Diag)` (diag.h:158-178): the new storage is made with `Diag(d.size())`, and `size` is that of `store`. -/
def apply (f : Fn K) (s : Sto K) : Res (Sto K) :=
  match f.of s.cplx with
  | none => .throw
  | some (c, g) =>
    if c != s.cplx then .ok ⟨c, s.store.map g, g s.val, s.store.length⟩
    else .ok { s with val := g s.val, store := s.store.map g }

/-- `fill` (itensor.cc:329-362) with `doTask(Fill,Diag)` (diag.cc:266-277). -/
def fill [DecidableEq K] (z : Cx K) (s : Sto K) : Res (Sto K) :=
  if z.im = 0 then .ok ⟨false, [], ⟨z.re, 0⟩, s.length⟩ else .ok ⟨true, [], z, s.length⟩

/-- One operation. -/
def step [DecidableEq K] (s : Sto K) : Op K → Res (Sto K)
  | .scale z => scale z s
  | .conj => conjT s
  | .re => takeReal s
  | .im => takeImag s
  | .apply f => apply f s
  | .fill z => fill z s

/-- Square of `doTask(NormNoScale,Diag)` (diag.cc:305-313); `realData` has the size of `store` (diag.h:123-133). -/
def normSq (s : Sto K) : Res K :=
  if s.allSame then .ok (sq s.val * s.length) else .ok (s.store.map sq).sum

/-- `doTask(SumEls,Diag)` (diag.cc:405-416); `m` is `minDim(is)`. -/
def sumEls (m : Nat) (s : Sto K) : Res (Cx K) :=
  if s.allSame then .ok (m * s.val) else .ok s.store.sum

end Diag

namespace QDiag

/-- `doTask(GetElt,QDiag)` (qdiag.cc:157-187). -/
def getElt (s : Sto K) (inds : List Nat) : Res (Cx K) :=
  if inds.length = 0 then
    match s.store with
    | x :: _ => .ok x
    | [] => .ub
  else
    let first := inds.headD 0
    if inds.any (· != first) then .ok 0
    else if s.allSame then .ok s.val
    else match s.store[first]? with
      | some x => .ok x
      | none => .throw

/-- `dscal_wrapper` on the first `length` elements (qdiag.h:106-116: `realData` has the size `size()`, which is `length`). -/
def dscal (z : Cx K) (s : Sto K) : Res (Sto K) :=
  if s.length ≤ s.store.length then .ok { s with store := (s.store.take s.length).map (· * z) ++ s.store.drop s.length } else .ub

/-- `operator*=(Cplx)` with `doTask(Mult,QDiag)` (qdiag.cc:206-246). In the last case with stored elements the `nd` which is scaled is the
storage that the second `makeNewData` has already deleted. -/
def scale [DecidableEq K] (z : Cx K) (s : Sto K) : Res (Sto K) :=
  if z.im = 0 then
    if s.allSame then .ok { s with val := s.val * ⟨z.re, 0⟩ } else dscal ⟨z.re, 0⟩ s
  else if s.cplx then
    if s.allSame then .ok { s with val := s.val * z } else .ok { s with store := s.store.map (· * z) }
  else
    if s.allSame then .ok ⟨true, [], s.val * z, s.length⟩ else .ub

/-- `doTask(Conj,QDiag)` (qdiag.h:249-250, qdiag.cc:248-259). -/
def conjT (s : Sto K) : Res (Sto K) :=
  if !s.cplx then .ok s
  else if s.allSame then .ok { s with val := conj s.val }
  else .ok { s with store := s.store.map conj }

/-- `doTask(ApplyIT,QDiag)` (qdiag.h:146-169): the new storage is made with `QDiag(d.size())`, which has `length` zeros as stored elements; the
`assert` that compares the sizes is off. -/
def apply (f : Fn K) (s : Sto K) : Res (Sto K) :=
  match f.of s.cplx with
  | none => .throw
  | some (c, g) =>
    if c != s.cplx then
      if s.store.length ≤ s.length then
        .ok ⟨c, s.store.map g ++ List.replicate (s.length - s.store.length) 0, g s.val, s.length⟩
      else .ub
    else .ok { s with val := g s.val, store := s.store.map g }

/-- One operation. There is no `doTask` for real part, imaginary part and `Fill` of a `QDiag` (dotask.h:490-523: an error). -/
def step [DecidableEq K] (s : Sto K) : Op K → Res (Sto K)
  | .scale z => scale z s
  | .conj => conjT s
  | .re => .throw
  | .im => .throw
  | .apply f => apply f s
  | .fill _ => .throw

/-- `doTask(GenerateIT,QDiag)` (qdiag.h:190-231) with a function whose values are `vals 0`, `vals 1`, … and of type `c`: when the type changes, the
length of the new storage is not set. -/
def generate (c : Bool) (vals : Nat → Cx K) (s : Sto K) : Sto K :=
  if c == s.cplx then
    if s.allSame then ⟨c, (List.range s.length).map vals, 0, s.length⟩
    else { s with store := (List.range s.store.length).map vals }
  else ⟨c, (List.range s.length).map vals, 0, 0⟩

/-- Square of `doTask(NormNoScale,QDiag)` (qdiag.cc:262-270). -/
def normSq (s : Sto K) : Res K :=
  if s.allSame then .ok (sq s.val * s.length)
  else if s.length ≤ s.store.length then .ok ((s.store.take s.length).map sq).sum else .ub

/-- `doTask(SumEls,QDiag)` (qdiag.cc:190-202). -/
def sumEls (s : Sto K) : Res (Cx K) :=
  if s.allSame then .ok (s.val * s.length) else .ok s.store.sum

/-- `doTask(RemoveQNs,QDiag)` (qdiag.cc:577-586): the new `Diag`. -/
def removeQNs (s : Sto K) : Sto K :=
  if s.allSame then ⟨s.cplx, [], s.val, s.length⟩ else ⟨s.cplx, s.store, 0, s.store.length⟩

end QDiag

/-! ## What the operations mean -/

/-- The value an operation gives to an element with value `x` of a storage of type `cplx`. -/
def Op.on (cplx : Bool) : Op K → Cx K → Cx K
  | .scale z, x => x * z
  | .conj, x => DiagOps.conj x
  | .re, x => ⟨x.re, 0⟩
  | .im, x => ⟨x.im, 0⟩
  | .apply f, x => match f.of cplx with
    | some (_, g) => g x
    | none => x
  | .fill z, _ => z

/-- The type of the result of an operation, and whether it has a single value: `(cplx, allSame)`. -/
def Op.ty [DecidableEq K] (t : Bool × Bool) : Op K → Bool × Bool
  | .scale z => (t.1 || decide (z.im ≠ 0), t.2)
  | .conj => t
  | .re => (false, t.2)
  | .im => (false, t.2)
  | .apply f => match f.of t.1 with
    | some (c, _) => (c, t.2)
    | none => t
  | .fill z => (decide (z.im ≠ 0), true)

/-- The value that a list of operations gives to an element. -/
def onAll [DecidableEq K] : Bool × Bool → List (Op K) → Cx K → Cx K
  | _, [], x => x
  | t, o :: os, x => onAll (o.ty t) os (o.on t.1 x)

/-- The function takes elements of the type `cplx`, and its results are of the type it says. -/
def Fn.Takes (f : Fn K) (cplx : Bool) : Prop :=
  ∃ p, f.of cplx = some p ∧ (p.1 = false → ∀ x, (cplx = false → x.im = 0) → (p.2 x).im = 0)

/-- Operations for which `Diag` is right: a function that changes the type is not applied to a tensor with a single value. -/
def FineD : Bool × Bool → Op K → Prop
  | t, .apply f => f.Takes t.1 ∧ (t.2 = true → (f.of t.1).map (·.1) = some t.1)
  | _, _ => True

/-- Operations for which `QDiag` is right. -/
def FineQ : Bool × Bool → Op K → Prop
  | t, .apply f => f.Takes t.1 ∧ (t.2 = true → (f.of t.1).map (·.1) = some t.1)
  | t, .scale z => z.im = 0 ∨ t = (true, false) ∨ t.2 = true
  | _, .conj => True
  | _, _ => False

/-- All operations of a list are fine when they are reached. -/
def FineAll [DecidableEq K] (F : Bool × Bool → Op K → Prop) : Bool × Bool → List (Op K) → Prop
  | _, [] => True
  | t, o :: os => F t o ∧ FineAll F (o.ty t) os

/-- A storage as the library builds it: a value for each element of the diagonal or a single one; real when its type says so. -/
structure Sto.OK (s : Sto K) : Prop where
  pos : 0 < s.length
  len : s.store = [] ∨ s.store.length = s.length
  val : s.cplx = false → s.val.im = 0
  real : s.cplx = false → ∀ x ∈ s.store, x.im = 0

/-- The abstract type of a storage. -/
def Sto.ty (s : Sto K) : Bool × Bool := (s.cplx, s.allSame)

/-- The value on the diagonal. -/
def Sto.at (s : Sto K) (J : Nat) : Cx K := if s.allSame then s.val else s.store.getD J 0

theorem Sto.OK.ne {s : Sto K} (h : s.OK) (ha : s.allSame = false) : s.store.length = s.length :=
  h.len.resolve_left fun e => by simp [Sto.allSame, e] at ha

/-- Effect of one operation: the same kind of storage, and every value changed by the operation. -/
structure Does [DecidableEq K] (s : Sto K) (o : Op K) (s' : Sto K) : Prop where
  ok : s'.OK
  ty : s'.ty = o.ty s.ty
  len : s'.length = s.length
  at' : ∀ J < s.length, s'.at J = o.on s.cplx (s.at J)

section
variable [DecidableEq K]

theorem map_at {s : Sto K} (g : Cx K → Cx K) (c : Bool) (v : Cx K) (hs : s.OK) (ha : s.allSame = false) {J : Nat} (hJ : J < s.length) (n : Nat) :
    (Sto.mk c (s.store.map g) v n).at J = g (s.at J) := by
  have hl := hs.ne ha
  have h2 : (Sto.mk c (s.store.map g) v n).allSame = false := by
    simpa [Sto.allSame] using ha
  simp [Sto.at, h2, ha, List.getD_eq_getElem?_getD, List.getElem?_eq_getElem (hl.symm ▸ hJ)]

theorem does_same {s : Sto K} {o : Op K} (hs : s.OK) (ha : s.allSame = true) (c : Bool) (v : Cx K) (ht : o.ty s.ty = (c, true)) (hv : v = o.on s.cplx s.val)
    (hr : c = false → v.im = 0) : Does s o ⟨c, [], v, s.length⟩ := by
  refine ⟨⟨hs.pos, .inl rfl, hr, by simp⟩, by rw [ht]; rfl, rfl, fun J _ => ?_⟩
  have e : s.at J = s.val := by simp [Sto.at, ha]
  rw [e, ← hv]
  rfl

theorem does_map {s : Sto K} {o : Op K} (hs : s.OK) (ha : s.allSame = false) (c : Bool) (v : Cx K) (g : Cx K → Cx K) (ht : o.ty s.ty = (c, false))
    (hg : g = o.on s.cplx) (hr : c = false → ∀ x, (s.cplx = false → x.im = 0) → (g x).im = 0) (hv : c = false → v.im = 0) (n : Nat) (hn : n = s.length) :
    Does s o ⟨c, s.store.map g, v, n⟩ := by
  subst hn
  refine ⟨⟨hs.pos, .inr (by simpa using hs.ne ha), hv, ?_⟩, ?_, rfl, fun J hJ => ?_⟩
  · intro hc x hx
    obtain ⟨y, hy, rfl⟩ := List.mem_map.1 hx
    exact hr hc y fun h => hs.real h y hy
  · rw [ht]
    simpa [Sto.ty, Sto.allSame] using ha
  · rw [map_at g c v hs ha hJ, hg]

omit [DecidableEq K] in
theorem sto_nil {s : Sto K} (ha : s.allSame = true) : s.store = [] := by simpa [Sto.allSame] using ha

omit [DecidableEq K] in
theorem real_mul {x z : Cx K} (hx : x.im = 0) (hz : z.im = 0) : (x * z).im = 0 := by
  simp [hx, hz]

theorem Diag.step_does {s : Sto K} {o : Op K} (hs : s.OK) (hf : FineD s.ty o) : ∃ s', Diag.step s o = .ok s' ∧ Does s o s' := by
  obtain ⟨c, st, v, n⟩ := s
  cases ha : (Sto.mk c st v n).allSame with
  | true =>
    obtain rfl := sto_nil ha
    cases o with
    | scale z =>
      simp only [Diag.step, Diag.scale, Diag.doMult, List.map_nil]
      split
      · next h =>
        have hz : (⟨z.re, 0⟩ : Cx K) = z := by ext <;> simp [h]
        refine ⟨_, rfl, does_same hs ha c _ (by simp [Op.ty, Sto.ty, ha, h]) (by rw [hz]; rfl) fun hc => ?_⟩
        exact real_mul (hs.val hc) rfl
      · next h =>
        split
        · next hc => exact ⟨_, rfl, does_same hs ha c _ (by simp [Op.ty, Sto.ty, ha, h] at hc ⊢; exact hc) rfl fun e => by simp_all⟩
        · exact ⟨_, rfl, does_same hs ha true _ (by simp [Op.ty, Sto.ty, ha, h]) rfl fun e => by simp_all⟩
    | conj =>
      simp only [Diag.step, Diag.conjT, ha]
      cases c with
      | false =>
        refine ⟨_, rfl, does_same hs ha false v (by simp [Op.ty, Sto.ty, ha]) ?_ hs.val⟩
        have h0 : v.im = 0 := hs.val rfl
        ext <;> simp [Op.on, DiagOps.conj, h0]
      | true => exact ⟨_, rfl, does_same hs ha true _ (by simp [Op.ty, Sto.ty, ha]) rfl (by simp)⟩
    | re =>
      simp only [Diag.step, Diag.takeReal, ha]
      cases c with
      | false =>
        refine ⟨_, rfl, does_same hs ha false v (by simp [Op.ty, Sto.ty, ha]) ?_ hs.val⟩
        ext <;> simp [Op.on]
        exact hs.val rfl
      | true => exact ⟨_, rfl, does_same hs ha false _ (by simp [Op.ty, Sto.ty, ha]) rfl (by simp)⟩
    | im =>
      simp only [Diag.step, Diag.takeImag, ha]
      cases c with
      | false =>
        refine ⟨_, rfl, does_same hs ha false 0 (by simp [Op.ty, Sto.ty, ha]) ?_ (by simp)⟩
        ext <;> simp [Op.on]
        exact (hs.val rfl).symm
      | true => exact ⟨_, rfl, does_same hs ha false _ (by simp [Op.ty, Sto.ty, ha]) rfl (by simp)⟩
    | apply f =>
      obtain ⟨⟨p, h1, h2⟩, h3⟩ := hf
      have hc : p.1 = c := by
        have := h3 ha
        rw [h1] at this
        simpa [Sto.ty] using this
      have h1' : f.of c = some p := h1
      simp only [Diag.step, Diag.apply, h1', hc, bne_self_eq_false, Bool.false_eq_true, if_false, List.map_nil]
      exact ⟨_, rfl, does_same hs ha c _ (by simp [Op.ty, Sto.ty, ha, h1', hc]) (by simp [Op.on, h1']) fun e => h2 (hc.trans e) v hs.val⟩
    | fill z =>
      simp only [Diag.step, Diag.fill]
      split
      · next h =>
        have hz : (⟨z.re, 0⟩ : Cx K) = z := by ext <;> simp [h]
        exact ⟨_, rfl, does_same hs ha false _ (by simp [Op.ty, h]) (by rw [hz]; rfl) (by simp)⟩
      · next h => exact ⟨_, rfl, does_same hs ha true _ (by simp [Op.ty, h]) rfl (by simp)⟩
  | false =>
    have hl : st.length = n := hs.ne ha
    cases o with
    | scale z =>
      simp only [Diag.step, Diag.scale, Diag.doMult]
      split
      · next h =>
        have hz : (⟨z.re, 0⟩ : Cx K) = z := by ext <;> simp [h]
        refine ⟨_, rfl, does_map hs ha c _ _ (by simp [Op.ty, Sto.ty, ha, h]) (by rw [hz]; rfl) ?_ ?_ n rfl⟩
        · intro hc x hx
          exact real_mul (hx hc) rfl
        · intro hc
          exact real_mul (hs.val hc) rfl
      · next h =>
        split
        · next hc => exact ⟨_, rfl, does_map hs ha c _ _ (by simp [Op.ty, Sto.ty, ha, h] at hc ⊢; exact hc) rfl (fun e => by simp_all) (fun e => by simp_all) n rfl⟩
        · exact ⟨_, rfl, does_map hs ha true _ _ (by simp [Op.ty, Sto.ty, ha, h]) rfl (by simp) (by simp) n rfl⟩
    | conj =>
      simp only [Diag.step, Diag.conjT, ha]
      cases c with
      | false =>
        refine ⟨_, rfl, hs, rfl, rfl, fun J hJ => ?_⟩
        have : ((Sto.mk false st v n).at J).im = 0 := by
          rw [Sto.at, ha]
          simp only [Bool.false_eq_true, if_false, List.getD_eq_getElem?_getD]
          have hJ' : J < st.length := by rw [hl]; exact hJ
          rw [List.getElem?_eq_getElem hJ']
          exact hs.real rfl _ (List.getElem_mem hJ')
        ext <;> simp [Op.on, DiagOps.conj, this]
      | true => exact ⟨_, rfl, does_map hs ha true v _ (by simp [Op.ty, Sto.ty, ha]) rfl (by simp) (by simp) n rfl⟩
    | re =>
      simp only [Diag.step, Diag.takeReal, ha]
      cases c with
      | false =>
        refine ⟨_, rfl, hs, by simp [Op.ty, Sto.ty], rfl, fun J hJ => ?_⟩
        have : ((Sto.mk false st v n).at J).im = 0 := by
          rw [Sto.at, ha]
          simp only [Bool.false_eq_true, if_false, List.getD_eq_getElem?_getD]
          have hJ' : J < st.length := by rw [hl]; exact hJ
          rw [List.getElem?_eq_getElem hJ']
          exact hs.real rfl _ (List.getElem_mem hJ')
        ext <;> simp [Op.on, this]
      | true => exact ⟨_, rfl, does_map hs ha false 0 _ (by simp [Op.ty, Sto.ty, ha]) rfl (fun _ _ _ => rfl) (by simp) _ hl⟩
    | im =>
      simp only [Diag.step, Diag.takeImag, ha]
      cases c with
      | false =>
        refine ⟨_, rfl, ⟨hs.pos, .inr (by simpa using hl), by simp, by simp⟩, by
          have : st ≠ [] := by simpa [Sto.allSame] using ha
          simp [Op.ty, Sto.ty, Sto.allSame, this], rfl, fun J hJ => ?_⟩
        have hJ' : J < st.length := by rw [hl]; exact hJ
        have h0 : (st[J]).im = 0 := hs.real rfl _ (List.getElem_mem hJ')
        have hne : st ≠ [] := by rintro rfl; simp at hJ'
        ext <;> simp [Op.on, Sto.at, Sto.allSame, hne, List.getElem?_eq_getElem hJ', List.getElem?_replicate, hJ', h0]
      | true => exact ⟨_, rfl, does_map hs ha false 0 _ (by simp [Op.ty, Sto.ty, ha]) rfl (fun _ _ _ => rfl) (by simp) _ hl⟩
    | apply f =>
      obtain ⟨⟨⟨d, g⟩, h1, h2⟩, h3⟩ := hf
      have h1' : f.of c = some (d, g) := h1
      simp only [Diag.step, Diag.apply, h1']
      split
      · exact ⟨_, rfl, does_map hs ha d _ g (by simp [Op.ty, Sto.ty, ha, h1']) (by funext x; simp [Op.on, h1']) h2 (fun e => h2 e v hs.val) _ hl⟩
      · next h =>
        have hd : d = c := by simpa using h
        subst hd
        exact ⟨_, rfl, does_map hs ha d _ g (by simp [Op.ty, Sto.ty, ha, h1']) (by funext x; simp [Op.on, h1']) h2 (fun e => h2 e v hs.val) _ rfl⟩
    | fill z =>
      simp only [Diag.step, Diag.fill]
      split
      · next h =>
        have hz : (⟨z.re, 0⟩ : Cx K) = z := by ext <;> simp [h]
        refine ⟨_, rfl, ⟨hs.pos, .inl rfl, by simp, by simp⟩, by simp [Op.ty, Sto.ty, Sto.allSame, h], rfl, fun J _ => ?_⟩
        rw [hz]; rfl
      · next h =>
        exact ⟨_, rfl, ⟨hs.pos, .inl rfl, by simp, by simp⟩, by simp [Op.ty, Sto.ty, Sto.allSame, h], rfl, fun J _ => rfl⟩

theorem QDiag.step_does {s : Sto K} {o : Op K} (hs : s.OK) (hf : FineQ s.ty o) : ∃ s', QDiag.step s o = .ok s' ∧ Does s o s' := by
  have hD : FineD s.ty o := by
    cases o <;> first | exact hf | trivial
  obtain ⟨s', e1, e2⟩ := Diag.step_does hs hD
  cases o with
  | re => exact hf.elim
  | im => exact hf.elim
  | fill z => exact hf.elim
  | conj => exact ⟨s', e1, e2⟩
  | scale z =>
    clear e1 e2 hD
    obtain ⟨c, st, v, n⟩ := s
    simp only [QDiag.step, QDiag.scale]
    cases ha : (Sto.mk c st v n).allSame with
    | true =>
      obtain rfl := sto_nil ha
      simp only [if_true]
      split
      · next h =>
        have hz : (⟨z.re, 0⟩ : Cx K) = z := by ext <;> simp [h]
        refine ⟨_, rfl, does_same hs ha c _ (by simp [Op.ty, Sto.ty, ha, h]) (by rw [hz]; rfl) fun hc => ?_⟩
        exact real_mul (hs.val hc) rfl
      · next h =>
        split
        · next hc => exact ⟨_, rfl, does_same hs ha c _ (by simp [Op.ty, Sto.ty, ha, h] at hc ⊢; exact hc) rfl fun e => by simp_all⟩
        · exact ⟨_, rfl, does_same hs ha true _ (by simp [Op.ty, Sto.ty, ha, h]) rfl fun e => by simp_all⟩
    | false =>
      have hl : st.length = n := hs.ne ha
      simp only [Bool.false_eq_true, if_false]
      split
      · next h =>
        have hz : (⟨z.re, 0⟩ : Cx K) = z := by ext <;> simp [h]
        subst hl
        simp only [QDiag.dscal, Nat.le_refl, if_true, List.take_length, List.drop_length, List.append_nil]
        refine ⟨_, rfl, ?_⟩
        refine does_map hs ha c _ _ (by simp [Op.ty, Sto.ty, ha, h]) (by rw [hz]; rfl) ?_ hs.val _ rfl
        intro hc x hx
        exact real_mul (hx hc) rfl
      · next h =>
        have hc : c = true := by
          rcases hf with hf | hf | hf
          · exact absurd hf h
          · exact congrArg Prod.fst hf
          · exact absurd (ha.symm.trans hf) (by simp)
        subst hc
        exact ⟨_, rfl, does_map hs ha true _ _ (by simp [Op.ty, Sto.ty, ha, h]) rfl (by simp) (by simp) n rfl⟩
  | apply f =>
    refine ⟨s', ?_, e2⟩
    rw [← e1]
    simp only [QDiag.step, Diag.step, QDiag.apply, Diag.apply]
    obtain ⟨⟨⟨d, g⟩, h1, h2⟩, h3⟩ := hf
    have h1' : f.of s.cplx = some (d, g) := h1
    simp only [h1']
    cases ha : s.allSame with
    | true =>
      have : d = s.cplx := by
        have := h3 ha
        rw [h1] at this
        simpa [Sto.ty] using this
      simp [this]
    | false =>
      have hl := hs.ne ha
      simp [hl]

/-- What a storage shows: the element at any position, the norm and the sum of the elements, given the values on the diagonal. -/
structure Shows (get : Sto K → List Nat → Res (Cx K)) (normSq : Sto K → Res K) (sumEls : Sto K → Res (Cx K)) (s : Sto K) (n : Nat) (x : Nat → Cx K) : Prop where
  diag : ∀ J < n, ∀ inds : List Nat, inds ≠ [] → (∀ i ∈ inds, i = J) → get s inds = .ok (x J)
  off : ∀ inds : List Nat, (∃ i ∈ inds, ∃ j ∈ inds, i ≠ j) → get s inds = .ok 0
  norm : normSq s = .ok (∑ J ∈ Finset.range n, sq (x J))
  sum : sumEls s = .ok (∑ J ∈ Finset.range n, x J)

omit [DecidableEq K] in
theorem any_ne {inds : List Nat} {J : Nat} (hne : inds ≠ []) (h : ∀ i ∈ inds, i = J) : inds.headD 0 = J ∧ inds.any (· != inds.headD 0) = false := by
  cases inds with
  | nil => exact absurd rfl hne
  | cons a l =>
    obtain rfl := h a (by simp)
    refine ⟨rfl, ?_⟩
    simpa using fun x hx => h x (by simp [hx])

omit [DecidableEq K] in
theorem any_ne' {inds : List Nat} (h : ∃ i ∈ inds, ∃ j ∈ inds, i ≠ j) : inds.any (· != inds.headD 0) = true := by
  obtain ⟨i, hi, j, hj, hij⟩ := h
  rw [List.any_eq_true]
  by_cases h1 : i = inds.headD 0
  · exact ⟨j, hj, by simp only [bne_iff_ne]; rintro rfl; exact hij h1⟩
  · exact ⟨i, hi, by simpa using h1⟩

omit [DecidableEq K] in
theorem sum_store {s : Sto K} (hs : s.OK) (ha : s.allSame = false) {M : Type*} [AddCommMonoid M] (g : Cx K → M) :
    (s.store.map g).sum = ∑ J ∈ Finset.range s.length, g (s.at J) := by
  have hl := hs.ne ha
  have : s.store = (List.range s.length).map s.at := by
    refine List.ext_getElem (by simp [hl]) fun J h1 h2 => ?_
    simp [Sto.at, ha, List.getElem?_eq_getElem h1]
  conv_lhs => rw [this]
  rw [List.map_map]
  rfl

omit [DecidableEq K] in
theorem Diag.shows {s : Sto K} (hs : s.OK) : Shows Diag.getElt Diag.normSq (Diag.sumEls s.length) s s.length s.at := by
  constructor
  · intro J hJ inds hne h
    obtain ⟨h1, h2⟩ := any_ne hne h
    unfold Diag.getElt
    dsimp only
    rw [h2, h1]
    simp only [Bool.false_eq_true, if_false]
    cases ha : s.allSame with
    | true => simp [Sto.at, ha]
    | false => simp [Sto.at, ha, List.getElem?_eq_getElem ((hs.ne ha).symm ▸ hJ)]
  · intro inds h
    simp only [Diag.getElt, any_ne' h, if_true]
  · cases ha : s.allSame with
    | true => simp [Diag.normSq, Sto.at, ha, mul_comm]
    | false => simp [Diag.normSq, ha, sum_store hs ha]
  · cases ha : s.allSame with
    | true => simp [Diag.sumEls, Sto.at, ha]
    | false => simpa [Diag.sumEls, ha] using sum_store hs ha id

omit [DecidableEq K] in
theorem QDiag.shows {s : Sto K} (hs : s.OK) : Shows QDiag.getElt QDiag.normSq QDiag.sumEls s s.length s.at := by
  have hD := Diag.shows hs
  constructor
  · intro J hJ inds hne h
    rw [← hD.diag J hJ inds hne h]
    simp [QDiag.getElt, hne, Diag.getElt]
  · intro inds h
    rw [← hD.off inds h]
    have : inds ≠ [] := by rintro rfl; simp at h
    simp [QDiag.getElt, this, Diag.getElt]
  · rw [← hD.norm]
    cases ha : s.allSame with
    | true => simp [QDiag.normSq, Diag.normSq, ha]
    | false =>
      have e : s.store.take s.length = s.store := by rw [← hs.ne ha, List.take_length]
      simp [QDiag.normSq, Diag.normSq, ha, hs.ne ha, e]
  · rw [← hD.sum]
    cases ha : s.allSame with
    | true => simp [QDiag.sumEls, Diag.sumEls, ha, mul_comm]
    | false => simp [QDiag.sumEls, Diag.sumEls, ha]

theorem run_does {step : Sto K → Op K → Res (Sto K)} {F : Bool × Bool → Op K → Prop}
    (hstep : ∀ {s : Sto K} {o : Op K}, s.OK → F s.ty o → ∃ s', step s o = .ok s' ∧ Does s o s') :
    ∀ (os : List (Op K)) {s : Sto K}, s.OK → FineAll F s.ty os →
      ∃ s', Res.foldM step s os = .ok s' ∧ s'.OK ∧ s'.length = s.length ∧ ∀ J < s.length, s'.at J = onAll s.ty os (s.at J)
  | [], s, hs, _ => ⟨s, rfl, hs, rfl, fun _ _ => rfl⟩
  | o :: os, s, hs, hf => by
    obtain ⟨s1, e1, d⟩ := hstep hs hf.1
    obtain ⟨s2, f1, f2, f3, f4⟩ := run_does hstep os d.ok (by rw [d.ty]; exact hf.2)
    refine ⟨s2, by rw [Res.foldM_cons, e1]; exact f1, f2, f3.trans d.len, fun J hJ => ?_⟩
    rw [f4 J (by rw [d.len]; exact hJ), d.at' J hJ, d.ty]
    rfl

/-- **C66, `Diag`.** After any list of scalings, conjugations, real and imaginary parts, fills and applied functions, every element is what the operations
make of the element before, and the norm and the sum are those of the elements. Partial: excluded is a function that changes the type applied to
a tensor with a single value, see `C66_apply_counterexample`. -/
theorem C66_diag_partial {s : Sto K} (hs : s.OK) {os : List (Op K)} (hf : FineAll FineD s.ty os) :
    ∃ s', Res.foldM Diag.step s os = .ok s' ∧
      Shows Diag.getElt Diag.normSq (Diag.sumEls s.length) s' s.length (fun J => onAll s.ty os (s.at J)) := by
  obtain ⟨s', e1, e2, e3, e4⟩ := run_does Diag.step_does os hs hf
  refine ⟨s', e1, ?_⟩
  have h := Diag.shows e2
  rw [e3] at h
  exact ⟨fun J hJ => by rw [← e4 J hJ]; exact h.diag J hJ, h.off,
    by rw [h.norm]; exact congrArg Res.ok (Finset.sum_congr rfl fun J hJ => by rw [e4 J (Finset.mem_range.1 hJ)]),
    by rw [h.sum]; exact congrArg Res.ok (Finset.sum_congr rfl fun J hJ => by rw [e4 J (Finset.mem_range.1 hJ)])⟩

/-- **C66, `QDiag`.** The same for diagonal tensors with quantum numbers. Partial: excluded are also the multiplication of a real tensor with stored elements by
a complex number (`C66_complex_counterexample`) and the operations that the storage does not have. -/
theorem C66_qdiag_partial {s : Sto K} (hs : s.OK) {os : List (Op K)} (hf : FineAll FineQ s.ty os) :
    ∃ s', Res.foldM QDiag.step s os = .ok s' ∧
      Shows QDiag.getElt QDiag.normSq QDiag.sumEls s' s.length (fun J => onAll s.ty os (s.at J)) := by
  obtain ⟨s', e1, e2, e3, e4⟩ := run_does QDiag.step_does os hs hf
  refine ⟨s', e1, ?_⟩
  have h := QDiag.shows e2
  rw [e3] at h
  exact ⟨fun J hJ => by rw [← e4 J hJ]; exact h.diag J hJ, h.off,
    by rw [h.norm]; exact congrArg Res.ok (Finset.sum_congr rfl fun J hJ => by rw [e4 J (Finset.mem_range.1 hJ)]),
    by rw [h.sum]; exact congrArg Res.ok (Finset.sum_congr rfl fun J hJ => by rw [e4 J (Finset.mem_range.1 hJ)])⟩

omit [DecidableEq K] in
/-- **C59, `QDiag`.** Removing the quantum numbers keeps the elements, the norm and the sum. -/
theorem C59_diag {s : Sto K} (hs : s.OK) :
    (QDiag.removeQNs s).cplx = s.cplx ∧ Shows Diag.getElt Diag.normSq (Diag.sumEls s.length) (QDiag.removeQNs s) s.length s.at ∧
      ∀ inds : List Nat, inds ≠ [] → (∀ i ∈ inds, i < s.length) →
        ∃ x, QDiag.getElt s inds = .ok x ∧ Diag.getElt (QDiag.removeQNs s) inds = .ok x := by
  have key : ∃ t : Sto K, QDiag.removeQNs s = t ∧ t.OK ∧ t.length = s.length ∧ t.cplx = s.cplx ∧ t.at = s.at := by
    unfold QDiag.removeQNs
    cases ha : s.allSame with
    | true =>
      refine ⟨_, rfl, ⟨hs.pos, .inl rfl, hs.val, by simp⟩, rfl, rfl, ?_⟩
      funext J
      have ha' : (Sto.mk s.cplx [] s.val s.length).allSame = true := rfl
      simp [Sto.at, ha, ha']
    | false =>
      have hl := hs.ne ha
      refine ⟨_, rfl, ⟨by simp [hl, hs.pos], .inr rfl, by simp, hs.real⟩, hl, rfl, ?_⟩
      funext J
      have ha' : (Sto.mk s.cplx s.store (0 : Cx K) s.store.length).allSame = false := ha
      simp [Sto.at, ha, ha']
  obtain ⟨t, ht, h1, h2, h3, h4⟩ := key
  have hs1 := Diag.shows h1
  have hs2 := QDiag.shows hs
  rw [ht]
  rw [h2, h4] at hs1
  refine ⟨h3, hs1, fun inds hne hlt => ?_⟩
  by_cases h : ∃ i ∈ inds, ∃ j ∈ inds, i ≠ j
  · exact ⟨0, hs2.off inds h, hs1.off inds h⟩
  · have hall : ∀ i ∈ inds, i = inds.headD 0 := by
      intro i hi
      by_contra hn
      refine h ⟨i, hi, inds.headD 0, ?_, hn⟩
      cases inds with
      | nil => exact absurd rfl hne
      | cons a l => simp
    have hmem : inds.headD 0 < s.length := by
      cases inds with
      | nil => exact absurd rfl hne
      | cons a l => exact hlt a (by simp)
    exact ⟨_, hs2.diag _ hmem inds hne hall, hs1.diag _ hmem inds hne hall⟩

end

/-! ## Cases in which the storages are wrong -/

/-- The singular values of a tensor with quantum numbers: stored real elements. -/
def exS : Sto Int := ⟨false, [⟨3, 0⟩, ⟨2, 0⟩], 0, 2⟩

/-- A delta tensor. -/
def exDelta : Sto Int := ⟨false, [], ⟨1, 0⟩, 2⟩

theorem exS_ok : exS.OK := ⟨by decide, .inr rfl, by decide, by decide⟩
theorem exDelta_ok : exDelta.OK := ⟨by decide, .inl rfl, by decide, by decide⟩

/-- **C66 is false for `QDiag`** (qdiag.cc:232-246): multiplying a real tensor with stored elements, such as the singular values, by a complex number uses
storage that was deleted. The same product is right without quantum numbers. -/
theorem C66_complex_counterexample :
    exS.OK ∧ QDiag.step exS (.scale ⟨0, 1⟩) = .ub ∧ (Diag.step exS (.scale ⟨0, 1⟩)).map (fun t => t.store) = .ok [⟨0, 3⟩, ⟨0, 2⟩] :=
  ⟨exS_ok, by decide +kernel, by decide +kernel⟩

/-- The function `x ↦ i x` for real `x`, with complex values. -/
def exF : Fn Int := ⟨some (true, fun x => ⟨0, x.re⟩), none⟩

/-- **C66 is false of `apply`** with a function from real to complex numbers on a tensor with a single value (diag.h:163-170, qdiag.h:149-158): without quantum numbers
the elements are right but the length is lost and the norm is zero; with quantum numbers all elements become zero. -/
theorem C66_apply_counterexample :
    exDelta.OK ∧ exF.Takes false ∧
    (Diag.step exDelta (.apply exF)).bind (fun t => Diag.getElt t [1, 1]) = .ok ⟨0, 1⟩ ∧ (Diag.step exDelta (.apply exF)).bind Diag.normSq = .ok 0 ∧
    (QDiag.step exDelta (.apply exF)).bind (fun t => QDiag.getElt t [1, 1]) = .ok 0 :=
  ⟨exDelta_ok, ⟨_, rfl, by simp⟩, by decide +kernel, by decide +kernel, by decide +kernel⟩

/-- `generate` with a function of the other type leaves the length of the storage zero (qdiag.h:203-217): the norm is that of no element, and
scaling with a real number does nothing. -/
theorem C66_generate_counterexample :
    exS.OK ∧ QDiag.normSq (QDiag.generate true (fun n : Nat => ⟨0, (n : Int) + 1⟩) exS) = .ok 0 ∧
    QDiag.getElt (QDiag.generate true (fun n : Nat => ⟨0, (n : Int) + 1⟩) exS) [1, 1] = .ok ⟨0, 2⟩ ∧
    (QDiag.step (QDiag.generate true (fun n : Nat => ⟨0, (n : Int) + 1⟩) exS) (.scale ⟨5, 0⟩)).bind (fun t => QDiag.getElt t [1, 1]) = .ok ⟨0, 2⟩ :=
  ⟨exS_ok, by decide +kernel, by decide +kernel, by decide +kernel⟩

/-- A tensor without indices and with a single value cannot be read (qdiag.cc:168). -/
theorem C66_scalar_counterexample : ∀ (v : Cx Int) (n : Nat), QDiag.getElt ⟨false, [], v, n⟩ [] = .ub := fun _ _ => rfl

/-- The hypotheses of the theorems hold of long lists of operations, also those that change the type. -/
example : ∃ s', Res.foldM Diag.step exS [.apply exF, .scale ⟨2, 1⟩, .conj, .im, .scale ⟨0, 1⟩] = .ok s' ∧ Diag.getElt s' [1, 1] = .ok ⟨0, -4⟩ ∧
    Diag.normSq s' = .ok 52 := by
  obtain ⟨s', h1, h2⟩ := C66_diag_partial exS_ok (os := [.apply exF, .scale ⟨2, 1⟩, .conj, .im, .scale ⟨0, 1⟩])
    ⟨⟨⟨_, rfl, by simp⟩, by simp [exS, Sto.ty, Sto.allSame]⟩, trivial, trivial, trivial, trivial, trivial⟩
  refine ⟨s', h1, ?_, ?_⟩
  · rw [h2.diag 1 (by decide) [1, 1] (by simp) (by simp)]
    decide +kernel
  · rw [h2.norm]
    decide +kernel

example : ∃ s', Res.foldM QDiag.step exS [.scale ⟨5, 0⟩, .apply exF, .scale ⟨0, 1⟩, .conj] = .ok s' ∧ QDiag.getElt s' [1, 1] = .ok ⟨-10, 0⟩ := by
  obtain ⟨s', h1, h2⟩ := C66_qdiag_partial exS_ok (os := [.scale ⟨5, 0⟩, .apply exF, .scale ⟨0, 1⟩, .conj])
    ⟨.inl rfl, ⟨⟨_, rfl, by simp⟩, by simp [exS, Op.ty, Sto.ty, Sto.allSame]⟩, .inr (.inl rfl), trivial, trivial⟩
  refine ⟨s', h1, ?_⟩
  rw [h2.diag 1 (by decide) [1, 1] (by simp) (by simp)]
  decide +kernel

end Verif.DiagOps
