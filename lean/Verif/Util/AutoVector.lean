import Verif.Base
import Mathlib.Logic.Function.Basic
import Mathlib.Tactic.Common
import Mathlib.Tactic.Ring
import Mathlib.Algebra.BigOperators.Intervals
import Mathlib.Order.Interval.Finset.Basic
import Mathlib.Data.Int.Interval

/-!
# Model of `autovector` (util/autovector.h) and C32

`lint` (64-bit) is modelled by `Int`: overflow is not modelled.
-/

namespace Verif.Util

open Verif

/-- The members of `autovector` (autovector.h:49-52). -/
structure AutoVector (T : Type*) where
  mini : Int
  maxi : Int
  miniloc : Int
  dat : List T

namespace AutoVector

variable {T : Type*} [Inhabited T]

/-- `dat_[j]`; outside the vector this is undefined. -/
def datAt (l : List T) (j : Int) : Res T :=
  if 0 ≤ j then match l[j.toNat]? with | some x => .ok x | none => .ub else .ub

/-- Default constructor (autovector.h:61-62). -/
def empty : AutoVector T := ⟨1, 0, 0, []⟩

/-- `autovector(min,max,t)` (autovector.h:64-71). A negative length throws (`std::length_error`). -/
def ofRange (a b : Int) (t : T) : Res (AutoVector T) :=
  if b - a + 1 < 0 then .throw else .ok ⟨a, b, 0, List.replicate (b - a + 1).toNat t⟩

/-- `operator()(i) const` (autovector.h:98-103). -/
def at' (v : AutoVector T) (i : Int) : Res T :=
  if v.dat = [] ∨ i < v.mini ∨ i > v.maxi then .ok default else datAt v.dat (i - v.mini + v.miniloc)

/-- `fast`, `operator[] const` (autovector.h:148-161). -/
def fast (v : AutoVector T) (i : Int) : Res T := datAt v.dat (i - v.mini + v.miniloc)

/-- The copying loop of `ref` (autovector.h:137-138): `n` elements from position `b` of `old` to position
`a` of the new vector. -/
def copyLoop (old : List T) (a b : Int) : Nat → List T → Res (List T)
  | 0, l => .ok l
  | n + 1, l => (copyLoop old a b n l).bind fun l => (datAt old (b + n)).bind fun x =>
      if 0 ≤ a + n ∧ (a + n).toNat < l.length then .ok (l.set (a + n).toNat x) else .ub

/-- The part of `ref` before the element is returned (autovector.h:111-144). -/
def grow (v : AutoVector T) (i : Int) : Res (AutoVector T) :=
  if v.dat = [] then .ok ⟨i, i, 4, List.replicate 9 default⟩
  else if i < v.mini ∨ i > v.maxi then
    let newmini := min i v.mini
    let newmaxi := max i v.maxi
    let j := i - v.mini + v.miniloc
    if 0 ≤ j ∧ j < v.dat.length then .ok ⟨newmini, newmaxi, v.miniloc + (newmini - v.mini), v.dat⟩
    else
      let newlen := (newmaxi - newmini + 8) * 2
      let newminiloc := (newlen - (newmaxi - newmini + 1)).tdiv 2
      let newbegin := newminiloc - newmini + v.mini
      (copyLoop v.dat newbegin v.miniloc (v.maxi - v.mini + 1).toNat (List.replicate newlen.toNat default)).bind
        fun d => .ok ⟨newmini, newmaxi, newminiloc, d⟩
  else .ok v

/-- `v.ref(i) = x` (autovector.h:105-146). -/
def write (v : AutoVector T) (i : Int) (x : T) : Res (AutoVector T) :=
  (grow v i).bind fun v =>
    let j := i - v.mini + v.miniloc
    if 0 ≤ j ∧ j.toNat < v.dat.length then .ok { v with dat := v.dat.set j.toNat x } else .ub

/-- `v.ref(i)` used for reading. -/
def ref (v : AutoVector T) (i : Int) : Res (AutoVector T × T) :=
  (grow v i).bind fun v => (datAt v.dat (i - v.mini + v.miniloc)).bind fun x => .ok (v, x)

/-- `clear` (autovector.h:79-80). -/
def clear (v : AutoVector T) : AutoVector T := { v with dat := [] }

/-- Calls that change an `autovector`. -/
inductive Op (T : Type*)
  | write (i : Int) (x : T)
  | ref (i : Int)
  | clear

def step (v : AutoVector T) : Op T → Res (AutoVector T)
  | .write i x => write v i x
  | .ref i => (ref v i).map (·.1)
  | .clear => .ok (clear v)

def run (v : AutoVector T) (ops : List (Op T)) : Res (AutoVector T) := Res.foldM step v ops

/-! ## Specification -/

/-- `v` represents the total map `m`. -/
structure Rep (v : AutoVector T) (m : Int → T) : Prop where
  nil : v.dat = [] → ∀ i, m i = default
  out : v.dat ≠ [] → ∀ i, (i < v.mini ∨ i > v.maxi) → m i = default
  le : v.dat ≠ [] → v.mini ≤ v.maxi
  lo : v.dat ≠ [] → 0 ≤ v.miniloc
  hi : v.dat ≠ [] → v.miniloc + (v.maxi - v.mini) < v.dat.length
  cell : v.dat ≠ [] → ∀ j : Int, 0 ≤ j → j < v.dat.length → v.dat[j.toNat]? = some (m (j - v.miniloc + v.mini))

theorem Rep.at' {v : AutoVector T} {m : Int → T} (h : Rep v m) (i : Int) : at' v i = .ok (m i) := by
  unfold AutoVector.at'
  by_cases hd : v.dat = []
  · rw [if_pos (Or.inl hd), h.nil hd]
  · by_cases ho : i < v.mini ∨ i > v.maxi
    · rw [if_pos (Or.inr ho), h.out hd i ho]
    · rw [if_neg (by tauto)]
      have h1 := h.lo hd
      have h2 := h.hi hd
      have h3 := h.cell hd (i - v.mini + v.miniloc) (by omega) (by omega)
      unfold datAt
      rw [if_pos (by omega), h3]
      dsimp only
      congr 2
      omega

theorem Rep.fast {v : AutoVector T} {m : Int → T} (h : Rep v m) {i : Int} (hd : v.dat ≠ []) (h1 : v.mini ≤ i)
    (h2 : i ≤ v.maxi) : fast v i = .ok (m i) := by
  have := h.at' i
  unfold AutoVector.at' at this
  rw [if_neg (by simp [hd]; omega)] at this
  exact this

theorem copyLoop_spec {old l : List T} {a b : Int} {n : Nat} (ha : 0 ≤ a) (hb : 0 ≤ b) (han : a + n ≤ l.length)
    (hbn : b + n ≤ old.length) : ∃ d, copyLoop old a b n l = .ok d ∧ d.length = l.length ∧
      ∀ j : Nat, d[j]? = if a ≤ j ∧ (j : Int) < a + n then old[(j - a + b).toNat]? else l[j]? := by
  induction n with
  | zero => exact ⟨l, rfl, rfl, fun j => by rw [if_neg (by omega)]⟩
  | succ n ih =>
    obtain ⟨d, e, hl, hd⟩ := ih (by push_cast at han; omega) (by push_cast at hbn; omega)
    have hlt : (b + n).toNat < old.length := by push_cast at hbn; omega
    have hlt2 : (a + n).toNat < d.length := by rw [hl]; push_cast at han; omega
    refine ⟨d.set (a + n).toNat old[(b + n).toNat], ?_, by simp [hl], fun j => ?_⟩
    · rw [copyLoop, e, Res.bind_ok]
      unfold datAt
      rw [if_pos (by omega), List.getElem?_eq_getElem hlt]
      simp only [Res.bind_ok]
      rw [if_pos ⟨by omega, hlt2⟩]
    · by_cases ej : (a + n).toNat = j
      · subst ej
        rw [List.getElem?_set_self hlt2, if_pos (by push_cast; omega), ← List.getElem?_eq_getElem hlt]
        congr 1
        omega
      · rw [List.getElem?_set_ne ej, hd]
        by_cases hc : a ≤ j ∧ (j : Int) < a + n
        · rw [if_pos hc, if_pos (by push_cast; omega)]
        · rw [if_neg hc, if_neg (by push_cast; omega)]

theorem Rep.grow {v : AutoVector T} {m : Int → T} (h : Rep v m) (i : Int) :
    ∃ v', grow v i = .ok v' ∧ Rep v' m ∧ v'.dat ≠ [] ∧
      v'.mini = (if v.dat = [] then i else min i v.mini) ∧ v'.maxi = (if v.dat = [] then i else max i v.maxi) := by
  unfold AutoVector.grow
  by_cases hd : v.dat = []
  · simp only [if_pos hd]
    have hm := h.nil hd
    refine ⟨_, rfl, ⟨fun hc => by simp at hc, fun _ j _ => hm j, fun _ => Int.le_refl _, fun _ => by dsimp only; omega, fun _ => by simp,
      fun _ j h1 h2 => ?_⟩, by simp, rfl, rfl⟩
    simp only [hm]
    rw [List.getElem?_replicate, if_pos (by simp at h2; omega)]
  · simp only [if_neg hd]
    have h1 := h.le hd
    have h2 := h.lo hd
    have h3 := h.hi hd
    by_cases ho : i < v.mini ∨ i > v.maxi
    · rw [if_pos ho]
      by_cases hj : 0 ≤ i - v.mini + v.miniloc ∧ i - v.mini + v.miniloc < v.dat.length
      · rw [if_pos hj]
        refine ⟨_, rfl, ⟨fun hc => absurd hc hd, fun _ k hk => h.out hd k ?_, fun _ => by dsimp only; omega,
          fun _ => by dsimp only; omega, fun _ => by dsimp only; omega, fun _ j a b => ?_⟩, hd, rfl, rfl⟩
        · dsimp only at hk; omega
        · dsimp only at b ⊢
          rw [h.cell hd j a b]
          congr 2
          omega
      · rw [if_neg hj]
        set nmi := min i v.mini with hnmi
        set nma := max i v.maxi with hnma
        have hlen : 0 ≤ nma - nmi := by omega
        have htd : ((nma - nmi + 8) * 2 - (nma - nmi + 1)).tdiv 2 = ((nma - nmi + 8) * 2 - (nma - nmi + 1)) / 2 :=
          Int.tdiv_eq_ediv_of_nonneg (by omega)
        rw [htd]
        set nml := ((nma - nmi + 8) * 2 - (nma - nmi + 1)) / 2 with hnml
        have b1 : 0 ≤ nml := by omega
        have b2 : nml + (nma - nmi + 1) ≤ (nma - nmi + 8) * 2 := by omega
        have hlen2 : (((nma - nmi + 8) * 2).toNat : Int) = (nma - nmi + 8) * 2 := by omega
        have hcnt : (((v.maxi - v.mini + 1).toNat : Nat) : Int) = v.maxi - v.mini + 1 := by omega
        obtain ⟨d, e, hl, hdd⟩ := copyLoop_spec (old := v.dat)
          (l := List.replicate ((nma - nmi + 8) * 2).toNat (default : T)) (a := nml - nmi + v.mini) (b := v.miniloc)
          (n := (v.maxi - v.mini + 1).toNat) (by omega) h2 (by rw [List.length_replicate, hlen2, hcnt]; omega)
          (by rw [hcnt]; omega)
        rw [e, Res.bind_ok]
        rw [List.length_replicate] at hl
        have hdn : d ≠ [] := by
          intro hc; rw [hc] at hl; simp at hl; omega
        refine ⟨_, rfl, ⟨fun hc => absurd hc hdn, fun _ k hk => h.out hd k ?_, fun _ => by dsimp only; omega,
          fun _ => b1, fun _ => by dsimp only; rw [hl, hlen2]; omega, fun _ j a b => ?_⟩, hdn, rfl, rfl⟩
        · dsimp only at hk; omega
        · dsimp only at b ⊢
          rw [hl, hlen2] at b
          rw [hdd, hcnt, Int.toNat_of_nonneg a]
          by_cases hc : nml - nmi + v.mini ≤ j ∧ j < nml - nmi + v.mini + (v.maxi - v.mini + 1)
          · rw [if_pos hc, h.cell hd _ (by omega) (by omega)]
            congr 2
            omega
          · rw [if_neg hc, List.getElem?_replicate, if_pos (by omega), h.out hd _ (by omega)]
    · rw [if_neg ho]
      exact ⟨v, rfl, h, hd, by omega, by omega⟩

theorem Rep.write {v : AutoVector T} {m : Int → T} (h : Rep v m) (i : Int) (x : T) :
    ∃ v', write v i x = .ok v' ∧ Rep v' (Function.update m i x) ∧ v'.dat ≠ [] ∧
      v'.mini = (if v.dat = [] then i else min i v.mini) ∧ v'.maxi = (if v.dat = [] then i else max i v.maxi) := by
  obtain ⟨w, e, hw, hd, m1, m2⟩ := h.grow i
  have h1 := hw.le hd
  have h2 := hw.lo hd
  have h3 := hw.hi hd
  have hi1 : w.mini ≤ i := by rw [m1]; split_ifs <;> omega
  have hi2 : i ≤ w.maxi := by rw [m2]; split_ifs <;> omega
  unfold AutoVector.write
  rw [e, Res.bind_ok]
  simp only
  rw [if_pos ⟨by omega, by omega⟩]
  have hne : w.dat.set (i - w.mini + w.miniloc).toNat x ≠ [] := by simpa using hd
  refine ⟨_, rfl, ⟨fun hc => absurd hc hne, fun _ k hk => ?_, fun _ => h1, fun _ => h2, fun _ => by simpa using h3,
    fun _ j a b => ?_⟩, hne, m1, m2⟩
  · rw [Function.update_of_ne (by dsimp only at hk; omega), hw.out hd k hk]
  · simp only [List.length_set] at b ⊢
    by_cases ej : (i - w.mini + w.miniloc).toNat = j.toNat
    · have : j - w.miniloc + w.mini = i := by omega
      rw [this, Function.update_self, ← ej, List.getElem?_set_self (by omega)]
    · rw [List.getElem?_set_ne ej, hw.cell hd j a b, Function.update_of_ne (by omega)]

/-- The total map after one call. -/
def mstep (m : Int → T) : Op T → Int → T
  | .write i x => Function.update m i x
  | .ref _ => m
  | .clear => fun _ => default

theorem Rep.step {v : AutoVector T} {m : Int → T} (h : Rep v m) (op : Op T) :
    ∃ v', step v op = .ok v' ∧ Rep v' (mstep m op) := by
  cases op with
  | write i x => obtain ⟨v', e, r, _⟩ := h.write i x; exact ⟨v', e, r⟩
  | ref i =>
    obtain ⟨w, e, hw, hd, m1, m2⟩ := h.grow i
    have hr := hw.fast hd (i := i) (by rw [m1]; split_ifs <;> omega) (by rw [m2]; split_ifs <;> omega)
    refine ⟨w, ?_, hw⟩
    unfold AutoVector.fast at hr
    simp only [AutoVector.step, ref, e, Res.bind_ok, hr, Res.map_ok]
  | clear =>
    exact ⟨_, rfl, ⟨fun _ _ => rfl, fun hc => absurd rfl hc, fun hc => absurd rfl hc, fun hc => absurd rfl hc,
      fun hc => absurd rfl hc, fun hc => absurd rfl hc⟩⟩

theorem Rep.run {v : AutoVector T} {m : Int → T} (h : Rep v m) (ops : List (Op T)) :
    ∃ v', run v ops = .ok v' ∧ Rep v' (ops.foldl mstep m) := by
  induction ops generalizing v m with
  | nil => exact ⟨v, rfl, h⟩
  | cons op ops ih =>
    obtain ⟨v1, e1, r1⟩ := h.step op
    obtain ⟨v2, e2, r2⟩ := ih r1
    refine ⟨v2, ?_, r2⟩
    simp only [AutoVector.run, Res.foldM_cons, e1, Res.bind_ok]
    exact e2

theorem rep_empty : Rep (empty : AutoVector T) (fun _ => default) :=
  ⟨fun _ _ => rfl, fun hc => absurd rfl hc, fun hc => absurd rfl hc, fun hc => absurd rfl hc,
    fun hc => absurd rfl hc, fun hc => absurd rfl hc⟩

theorem rep_ofRange {a b : Int} (h : a ≤ b) (t : T) : ∃ v, ofRange a b t = .ok v ∧
    Rep v (fun i => if a ≤ i ∧ i ≤ b then t else default) := by
  unfold ofRange
  rw [if_neg (by omega)]
  have hlen : (((b - a + 1).toNat : Nat) : Int) = b - a + 1 := by omega
  refine ⟨_, rfl, ⟨fun hc => ?_, fun _ i hi => if_neg (by dsimp only at hi; omega), fun _ => h, fun _ => Int.le_refl _,
    fun _ => by simp only [List.length_replicate, hlen]; omega, fun _ j h1 h2 => ?_⟩⟩
  · simp at hc; omega
  · simp only [List.length_replicate, hlen] at h2
    dsimp only
    rw [List.getElem?_replicate, if_pos (by omega), if_pos (by omega)]

/-- **C32.** After any sequence of writes, references and clears on a new `autovector`, reading any
index (also negative) returns the last value written to it since the last clear, or the default
value; nothing is accessed out of bounds. -/
theorem C32_map (ops : List (Op T)) :
    ∃ v, run empty ops = .ok v ∧ ∀ i, at' v i = .ok (ops.foldl mstep (fun _ => default) i) := by
  obtain ⟨v, e, r⟩ := rep_empty.run ops
  exact ⟨v, e, r.at'⟩

/-- **C32, from a range.** The same for an `autovector` constructed with a range and a value. -/
theorem C32_map_range {a b : Int} (h : a ≤ b) (t : T) (ops : List (Op T)) :
    ∃ v0 v, ofRange a b t = .ok v0 ∧ run v0 ops = .ok v ∧
      ∀ i, at' v i = .ok (ops.foldl mstep (fun i => if a ≤ i ∧ i ≤ b then t else default) i) := by
  obtain ⟨v0, e0, r0⟩ := rep_ofRange h t
  obtain ⟨v, e, r⟩ := r0.run ops
  exact ⟨v0, v, e0, e, r.at'⟩

/-- Index an operation touches. -/
def Op.idx : Op T → Option Int
  | .write i _ => some i
  | .ref i => some i
  | .clear => none

/-- **C32, bounds.** As long as nothing is cleared, `mini` and `maxi` are the least and the greatest
index used so far, and unchecked access (`fast`, `[]`) within them reads the same as checked access. -/
theorem C32_bounds (op : Op T) (ops : List (Op T)) (hc : ∀ o ∈ op :: ops, Op.idx o ≠ none) :
    ∃ v, run empty (op :: ops) = .ok v ∧
      (some v.mini ∈ (op :: ops).map Op.idx ∧ some v.maxi ∈ (op :: ops).map Op.idx) ∧
      (∀ o ∈ op :: ops, ∀ i, Op.idx o = some i → v.mini ≤ i ∧ i ≤ v.maxi) ∧
      ∀ i, v.mini ≤ i → i ≤ v.maxi → fast v i = at' v i := by
  have hstep : ∀ (v : AutoVector T) (m : Int → T) (o : Op T), Rep v m → Op.idx o ≠ none →
      ∃ i v', Op.idx o = some i ∧ step v o = .ok v' ∧ Rep v' (mstep m o) ∧ v'.dat ≠ [] ∧
        v'.mini = (if v.dat = [] then i else min i v.mini) ∧ v'.maxi = (if v.dat = [] then i else max i v.maxi) := by
    intro v m o h ho
    cases o with
    | write i x =>
      obtain ⟨v', e, r, h1, h2, h3⟩ := h.write i x
      exact ⟨i, v', rfl, e, r, h1, h2, h3⟩
    | ref i =>
      obtain ⟨w, e, hw, hd, m1, m2⟩ := h.grow i
      have hr := hw.fast hd (i := i) (by rw [m1]; split_ifs <;> omega) (by rw [m2]; split_ifs <;> omega)
      refine ⟨i, w, rfl, ?_, hw, hd, m1, m2⟩
      unfold AutoVector.fast at hr
      simp only [AutoVector.step, ref, e, Res.bind_ok, hr, Res.map_ok]
    | clear => exact absurd rfl ho
  have key : ∀ (ops pre : List (Op T)) (v : AutoVector T) (m : Int → T), Rep v m → v.dat ≠ [] →
      (∀ o ∈ ops, Op.idx o ≠ none) → (some v.mini ∈ pre.map Op.idx ∧ some v.maxi ∈ pre.map Op.idx) →
      (∀ o ∈ pre, ∀ i, Op.idx o = some i → v.mini ≤ i ∧ i ≤ v.maxi) →
      ∃ v' m', run v ops = .ok v' ∧ Rep v' m' ∧ v'.dat ≠ [] ∧
        (some v'.mini ∈ (pre ++ ops).map Op.idx ∧ some v'.maxi ∈ (pre ++ ops).map Op.idx) ∧
        ∀ o ∈ pre ++ ops, ∀ i, Op.idx o = some i → v'.mini ≤ i ∧ i ≤ v'.maxi := by
    intro ops
    induction ops with
    | nil => intro pre v m h hd _ h1 h2; exact ⟨v, m, rfl, h, hd, by simpa using h1, by simpa using h2⟩
    | cons o ops ih =>
      intro pre v m h hd ho h1 h2
      obtain ⟨i, v1, hi, e1, r1, d1, m1, m2⟩ := hstep v m o h (ho o (by simp))
      rw [if_neg hd] at m1 m2
      obtain ⟨v2, m', e2, r2, d2, g1, g2⟩ := ih (pre ++ [o]) v1 _ r1 d1 (fun o h => ho o (by simp [h])) (by
          rw [m1, m2]
          simp only [List.map_append, List.mem_append, List.map_cons, List.map_nil, List.mem_singleton, hi]
          refine ⟨?_, ?_⟩
          · rcases min_choice i v.mini with e | e <;> rw [e]
            · exact Or.inr rfl
            · exact Or.inl h1.1
          · rcases max_choice i v.maxi with e | e <;> rw [e]
            · exact Or.inr rfl
            · exact Or.inl h1.2) (by
          intro p hp k hk
          rw [m1, m2]
          rcases List.mem_append.1 hp with hp | hp
          · have := h2 p hp k hk; omega
          · simp only [List.mem_singleton] at hp
            subst hp
            rw [hi] at hk
            cases hk
            omega)
      refine ⟨v2, m', ?_, r2, d2, by simpa using g1, by simpa using g2⟩
      simp only [AutoVector.run, Res.foldM_cons, e1, Res.bind_ok]
      exact e2
  obtain ⟨i, v1, hi, e1, r1, d1, m1, m2⟩ := hstep empty _ op rep_empty (hc op (by simp))
  rw [if_pos (show (empty : AutoVector T).dat = [] from rfl)] at m1 m2
  obtain ⟨v2, m', e2, r2, d2, g1, g2⟩ := key ops [op] v1 _ r1 d1 (fun o h => hc o (by simp [h]))
    (by simp [hi, m1, m2]) (by
      intro o ho k hk
      simp only [List.mem_singleton] at ho
      subst ho
      rw [hi] at hk
      cases hk
      omega)
  refine ⟨v2, ?_, g1, g2, fun i h1 h2 => by rw [r2.fast d2 h1 h2, r2.at']⟩
  simp only [AutoVector.run, Res.foldM_cons, e1, Res.bind_ok]
  exact e2

example : ∃ v, run (empty : AutoVector Nat) [.write 5 7, .write (-20) 3, .write 5 8, .ref 40] = .ok v ∧
    at' v 5 = .ok 8 ∧ at' v (-20) = .ok 3 ∧ at' v 0 = .ok 0 ∧ at' v 100 = .ok 0 := by
  obtain ⟨v, e, h⟩ := C32_map (T := Nat) [.write 5 7, .write (-20) 3, .write 5 8, .ref 40]
  exact ⟨v, e, (h 5).trans (by decide), (h (-20)).trans (by decide), (h 0).trans (by decide), (h 100).trans (by decide)⟩

/-- The loop of `dot` (autovector.h:171-176), `n` terms from index `i`. -/
def dotLoop {K : Type*} [CommSemiring K] [Inhabited K] (a b : AutoVector K) (i : Int) : Nat → Res K
  | 0 => .ok default
  | n + 1 => (dotLoop a b i n).bind fun r => (fast a (i + n)).bind fun x => (fast b (i + n)).bind fun y =>
      .ok (r + x * y)

/-- `dot` (autovector.h:167-177). -/
def dot {K : Type*} [CommSemiring K] [Inhabited K] (a b : AutoVector K) : Res K :=
  dotLoop a b (max a.mini b.mini) (min a.maxi b.maxi - max a.mini b.mini + 1).toNat

/-- **C32, `dot`.** With `T()` zero, `dot` is the sum of the products over all indices of any range that
contains both vectors' ranges; for vectors on which something has been written. -/
theorem C32_dot {K : Type*} [CommSemiring K] [Inhabited K] (hz : (default : K) = 0) {a b : AutoVector K}
    {ma mb : Int → K} (ha : Rep a ma) (hb : Rep b mb) (hda : a.dat ≠ []) (hdb : b.dat ≠ []) {lo hi : Int}
    (h1 : lo ≤ min a.mini b.mini) (h2 : max a.maxi b.maxi ≤ hi) :
    dot a b = .ok (∑ i ∈ Finset.Icc lo hi, ma i * mb i) := by
  have hl : ∀ n : Nat, (∀ k : Nat, k < n → a.mini ≤ max a.mini b.mini + k ∧ max a.mini b.mini + k ≤ a.maxi ∧
      b.mini ≤ max a.mini b.mini + k ∧ max a.mini b.mini + k ≤ b.maxi) →
      dotLoop a b (max a.mini b.mini) n = .ok (∑ k ∈ Finset.range n, ma (max a.mini b.mini + k) * mb (max a.mini b.mini + k)) := by
    intro n
    induction n with
    | zero => intro _; simp [dotLoop, hz]
    | succ n ih =>
      intro h
      obtain ⟨a1, a2, b1, b2⟩ := h n (by omega)
      rw [dotLoop, ih (fun k hk => h k (by omega)), Res.bind_ok, ha.fast hda a1 a2, Res.bind_ok, hb.fast hdb b1 b2,
        Res.bind_ok, Finset.sum_range_succ]
  unfold dot
  rw [hl _ (fun k hk => by omega)]
  congr 1
  have hsub : ∑ i ∈ Finset.Icc lo hi, ma i * mb i =
      ∑ i ∈ Finset.Icc (max a.mini b.mini) (min a.maxi b.maxi), ma i * mb i := by
    refine (Finset.sum_subset ?_ ?_).symm
    · intro i hi
      simp only [Finset.mem_Icc] at hi ⊢
      omega
    · intro i _ hn
      simp only [Finset.mem_Icc] at hn
      by_cases hc : i < a.mini ∨ i > a.maxi
      · rw [ha.out hda i hc, hz, zero_mul]
      · rw [hb.out hdb i (by omega), hz, mul_zero]
  rw [hsub]
  refine Finset.sum_nbij (fun k => max a.mini b.mini + (k : Int)) ?_ ?_ ?_ ?_
  · intro k hk
    simp only [Finset.mem_range, Finset.mem_Icc] at hk ⊢
    omega
  · intro x _ y _ h
    simp only at h
    omega
  · intro i hi
    simp only [Finset.coe_Icc, Set.mem_Icc] at hi
    refine ⟨(i - max a.mini b.mini).toNat, ?_, ?_⟩
    · simp only [Finset.coe_range, Set.mem_Iio]; omega
    · simp only; omega
  · intro k _; rfl

/-- **`clear` and the bounds.** After `clear` the old bounds remain: `size()` and unchecked access are
then wrong, and so is `dot`. -/
theorem C32_clear_counterexample : ∃ v : AutoVector Nat, run empty [.write 3 1, .clear] = .ok v ∧
    at' v 3 = .ok 0 ∧ v.maxi - v.mini + 1 = 1 ∧ fast v 3 = .ub ∧ dot v v = .ub :=
  ⟨_, rfl, rfl, rfl, rfl, rfl⟩

end AutoVector

end Verif.Util
