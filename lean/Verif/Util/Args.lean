import Verif.Util.InfArrayProps
import Mathlib.Data.List.Nodup

/-!
# Model of `Args` (util/args.h, util/args.cc) and C31

Building from a string of options is in `ArgsString.lean`. Not modelled: printing, and the
conversions between integers and `Real`; numeric values have an arbitrary type `R`.
-/

namespace Verif.Util

open Verif InfArray

/-- Option names, as bytes. -/
abbrev OptName := List UInt8

/-- The payload of `Args::Val` by type (args.h:225-240). -/
inductive Value (R : Type*)
  | bool (b : Bool)
  | num (r : R)
  | str (s : List UInt8)
  | none
  deriving DecidableEq

/-- `Args::Val` (args.h:222-295). -/
structure Val (R : Type*) where
  name : OptName
  value : Value R
  deriving DecidableEq

instance {R : Type*} : Inhabited (Val R) := ⟨⟨[78, 117, 108, 108], .none⟩⟩

/-- `chopSpaceEq` (args.cc:29-46): drops trailing `=` and spaces. -/
def chopSpaceEq (n : OptName) : OptName := (n.reverse.dropWhile fun c => c == 61 || c == 32).reverse

/-- The constructors of `Val` (args.cc:57-138). -/
def Val.make {R : Type*} (n : OptName) (v : Value R) : Val R := ⟨chopSpaceEq n, v⟩

namespace Args

variable {R : Type*}

/-- `storage_type` is `InfArray<Val,7>` (args.h:55). -/
abbrev N : Nat := 7

/-- The member `vals_` (args.h:300). -/
abbrev Store (R : Type*) := InfArray (Val R)

/-- `add(Val const&)` (args.cc:282-295). The loop over `vals_` stops at the first match; the model
reads all elements first. -/
def addVal (s : Store R) (v : Val R) : Res (Store R) :=
  match v.value with
  | .none => .ok s
  | _ => (elems N s).bind fun l =>
    match l.findIdx? (fun x => x.name == v.name) with
    | some i => set N s i v
    | none => pushBack N s v

/-- `add(name,value)` (args.cc:242-253). -/
def add (s : Store R) (n : OptName) (v : Value R) : Res (Store R) := addVal s (Val.make n v)

/-- `remove` (args.cc:270-279). -/
def remove (s : Store R) (n : OptName) : Res (Store R) :=
  (elems N s).bind fun l =>
    match l.findIdx? (fun x => x.name == n) with
    | some i => erase N s i
    | none => .ok s

/-- The search loop shared by `defined` and `get` (args.cc:258-261, 307-310). -/
def find (s : Store R) (n : OptName) : Res (Option (Val R)) :=
  (elems N s).bind fun l => .ok (l.find? fun x => x.name == n)

/-- `defined` (args.cc:255-267) of an `Args` that is not the global one; `g` is the global one. -/
def defined (g s : Store R) (n : OptName) : Res Bool :=
  (find s n).bind fun
    | some _ => .ok true
    | none => (find g n).bind fun o => .ok o.isSome

/-- `get` (args.cc:304-317). -/
def get (g s : Store R) (n : OptName) : Res (Val R) :=
  (find s n).bind fun
    | some v => .ok v
    | none => (find g n).bind fun
      | some v => .ok v
      | none => .throw

/-- The accessors `boolVal`, `realVal`, `stringVal` with `assertType` (args.h:253-266, args.cc:162-167):
a value of another type throws. -/
def boolVal (v : Val R) : Res Bool := match v.value with | .bool b => .ok b | _ => .throw
def realVal (v : Val R) : Res R := match v.value with | .num r => .ok r | _ => .throw
def stringVal (v : Val R) : Res (List UInt8) := match v.value with | .str t => .ok t | _ => .throw

/-- `getBool(name,default)`, `getReal(name,default)`, `getString(name,default)`
(args.cc:325-330, 378-383, 339-344). -/
def getD {α : Type*} (acc : Val R → Res α) (g s : Store R) (n : OptName) (d : α) : Res α :=
  (defined g s n).bind fun b => if b then (get g s n).bind acc else .ok d

/-- `operator+=` (args.cc:446-454). -/
def plusEq (s t : Store R) : Res (Store R) := (elems N t).bind fun l => Res.foldM addVal s l

/-- Copy construction (args.cc:212-217): the global object copies as empty. -/
def copyArgs (isGlobal : Bool) (junk : Nat → Val R) (s : Store R) : Store R :=
  if isGlobal then empty junk else copy N s

/-- Calls changing an `Args`. -/
inductive Op (R : Type*)
  | add (n : OptName) (v : Value R)
  | remove (n : OptName)

def step (s : Store R) : Op R → Res (Store R)
  | .add n v => add s n v
  | .remove n => remove s n

def run (s : Store R) (ops : List (Op R)) : Res (Store R) := Res.foldM step s ops

/-! ## Specification: a map -/

/-- The map after one call. -/
def mstep (m : OptName → Option (Value R)) : Op R → OptName → Option (Value R)
  | .add n v => match v with
    | .none => m
    | v => fun k => if k = chopSpaceEq n then some v else m k
  | .remove n => fun k => if k = n then none else m k

def mrun (m : OptName → Option (Value R)) (ops : List (Op R)) : OptName → Option (Value R) := ops.foldl mstep m

/-- The number of options defined never is `N+1 = 8` when an option that is present is removed. -/
def Safe : List OptName → List (Op R) → Prop
  | _, [] => True
  | ks, .add n v :: ops => match v with
    | .none => Safe ks ops
    | _ => Safe (if chopSpaceEq n ∈ ks then ks else ks ++ [chopSpaceEq n]) ops
  | ks, .remove n :: ops => (n ∈ ks → ks.length ≠ N + 1) ∧ Safe (ks.erase n) ops

/-- `s` represents the map `m` whose defined names are `ks`. -/
structure MapRep (s : Store R) (ks : List OptName) (m : OptName → Option (Value R)) : Prop where
  rep : ∃ l, Rep N s l ∧ l.map (·.name) = ks ∧ ∀ n, (l.find? fun x => x.name == n).map (·.value) = m n
  nodup : ks.Nodup

theorem find_map {l : List (Val R)} {n : OptName} :
    (l.find? fun x => x.name == n) = none ↔ n ∉ l.map (·.name) := by
  simp [List.find?_eq_none]

theorem mapRep_empty (junk : Nat → Val R) : MapRep (empty junk) [] (fun _ => none) :=
  ⟨⟨[], rep_empty N junk, rfl, fun _ => rfl⟩, List.nodup_nil⟩

theorem MapRep.addVal {s : Store R} {ks : List OptName} {m : OptName → Option (Value R)} (h : MapRep s ks m)
    (v : Val R) (hv : v.value ≠ .none) : ∃ s', addVal s v = .ok s' ∧
      MapRep s' (if v.name ∈ ks then ks else ks ++ [v.name]) (fun k => if k = v.name then some v.value else m k) := by
  obtain ⟨⟨l, hl, hk, hm⟩, hnd⟩ := h
  have hne : Args.addVal s v = match l.findIdx? (fun x => x.name == v.name) with
    | some i => InfArray.set N s i v
    | none => pushBack N s v := by
    unfold Args.addVal
    rw [hl.elems]
    cases hvv : v.value with
    | none => exact absurd hvv hv
    | _ => rfl
  cases hf : l.findIdx? (fun x => x.name == v.name) with
  | none =>
    have hnot : v.name ∉ ks := by
      rw [← hk]
      intro hc
      obtain ⟨x, hx, e⟩ := List.mem_map.1 hc
      rw [List.findIdx?_eq_none_iff] at hf
      have := hf x hx
      simp [e] at this
    obtain ⟨s', e, r⟩ := hl.push v
    refine ⟨s', by rw [hne, hf]; exact e, ⟨l ++ [v], r, by simp [hk, hnot], fun n => ?_⟩, ?_⟩
    · rw [List.find?_append]
      by_cases en : n = v.name
      · subst en
        have : (l.find? fun x => x.name == v.name) = none := find_map.2 (by rw [hk]; exact hnot)
        simp [this]
      · have : ¬ v.name = n := fun h => en h.symm
        simp only [if_neg en, ← hm n]
        cases l.find? fun x => x.name == n <;> simp [this]
    · rw [if_neg hnot]
      exact List.nodup_append.2 ⟨hnd, by simp, by simp; rintro a ha rfl; exact hnot ha⟩
  | some i =>
    obtain ⟨hi, h1, h2⟩ := List.findIdx?_eq_some_iff_getElem.1 hf
    have h1' : l[i].name = v.name := by simpa using h1
    have hin : v.name ∈ ks := by rw [← hk, ← h1']; exact List.mem_map_of_mem (List.getElem_mem hi)
    obtain ⟨s', e, r⟩ := hl.set hi v
    have hnames : (l.set i v).map (·.name) = ks := by
      rw [List.map_set, ← hk, ← h1']
      apply List.ext_getElem?
      intro j
      by_cases ej : i = j
      · subst ej; simp [hi]
      · rw [List.getElem?_set_ne ej]
    refine ⟨s', by rw [hne, hf]; exact e, ⟨l.set i v, r, by rw [if_pos hin, hnames], fun n => ?_⟩, by rw [if_pos hin]; exact hnd⟩
    rw [← hm n]
    have hsplit : l = l.take i ++ l[i] :: l.drop (i + 1) := by
      rw [← List.drop_eq_getElem_cons hi, List.take_append_drop]
    have hset : l.set i v = l.take i ++ v :: l.drop (i + 1) := List.set_eq_take_append_cons_drop.trans (if_pos hi)
    rw [hset]
    conv_rhs => rw [hsplit]
    simp only [List.find?_append]
    by_cases en : n = v.name
    · subst en
      have : ((l.take i).find? fun x => x.name == v.name) = none := by
        rw [List.find?_eq_none]
        intro x hx
        obtain ⟨j, hj, rfl⟩ := List.mem_take_iff_getElem.1 hx
        simpa using h2 j (by omega)
      simp [this]
    · have a1 : ¬ v.name = n := fun h => en h.symm
      have a2 : ¬ l[i].name = n := by rw [h1']; exact a1
      simp [if_neg en, a1, a2, -List.getElem_cons_drop, List.find?_cons]

theorem MapRep.remove {s : Store R} {ks : List OptName} {m : OptName → Option (Value R)} (h : MapRep s ks m)
    (n : OptName) (hs : n ∈ ks → ks.length ≠ N + 1) : ∃ s', remove s n = .ok s' ∧
      MapRep s' (ks.erase n) (fun k => if k = n then none else m k) := by
  obtain ⟨⟨l, hl, hk, hm⟩, hnd⟩ := h
  have hlen : ks.length = l.length := by rw [← hk]; simp
  unfold Args.remove
  rw [hl.elems, Res.bind_ok]
  cases hf : l.findIdx? (fun x => x.name == n) with
  | none =>
    have hnot : n ∉ ks := by
      rw [← hk]
      intro hc
      obtain ⟨x, hx, e⟩ := List.mem_map.1 hc
      rw [List.findIdx?_eq_none_iff] at hf
      have := hf x hx
      simp [e] at this
    refine ⟨s, rfl, ⟨l, hl, by rw [List.erase_of_not_mem hnot, hk], fun k => ?_⟩, by rw [List.erase_of_not_mem hnot]; exact hnd⟩
    by_cases ek : k = n
    · subst ek
      have : (l.find? fun x => x.name == k) = none := find_map.2 (by rw [hk]; exact hnot)
      simp [this]
    · rw [if_neg ek, hm]
  | some i =>
    obtain ⟨hi, h1, h2⟩ := List.findIdx?_eq_some_iff_getElem.1 hf
    have h1' : l[i].name = n := by simpa using h1
    have hin : n ∈ ks := by rw [← hk, ← h1']; exact List.mem_map_of_mem (List.getElem_mem hi)
    obtain ⟨s', e, r⟩ := hl.erase (k := i) hi (by rw [← hlen]; exact hs hin)
    have hsplit : l = l.take i ++ l[i] :: l.drop (i + 1) := by
      rw [← List.drop_eq_getElem_cons hi, List.take_append_drop]
    have hnd' : (l.map (·.name)).Nodup := by rw [hk]; exact hnd
    have hnt : ∀ x ∈ l.take i, x.name ≠ n := by
      intro x hx
      obtain ⟨j, hj, rfl⟩ := List.mem_take_iff_getElem.1 hx
      simpa using h2 j (by omega)
    have hndr : ∀ x ∈ l.drop (i + 1), x.name ≠ n := by
      intro x hx e
      rw [hsplit, List.map_append, List.map_cons] at hnd'
      have := (List.nodup_cons.1 (List.nodup_append.1 hnd').2.1).1
      exact this (by rw [h1', ← e]; exact List.mem_map_of_mem hx)
    refine ⟨s', e, ⟨l.eraseIdx i, r, ?_, fun k => ?_⟩, hnd.erase n⟩
    · rw [List.eraseIdx_eq_take_drop_succ, ← hk]
      conv_rhs => rw [hsplit]
      rw [List.map_append, List.map_append, List.map_cons, h1', List.erase_append_right, List.erase_cons_head]
      intro hc
      obtain ⟨x, hx, e⟩ := List.mem_map.1 hc
      exact hnt x hx e
    · rw [← hm k, List.eraseIdx_eq_take_drop_succ]
      conv_rhs => rw [hsplit]
      simp only [List.find?_append, List.find?_cons]
      by_cases ek : k = n
      · subst ek
        have t1 : ((l.take i).find? fun x => x.name == k) = none := by
          rw [List.find?_eq_none]; intro x hx; simpa using hnt x hx
        have t2 : ((l.drop (i + 1)).find? fun x => x.name == k) = none := by
          rw [List.find?_eq_none]; intro x hx; simpa using hndr x hx
        simp [t1, t2]
      · have : (l[i].name == k) = false := by rw [h1']; simpa using fun h => ek h.symm
        simp only [if_neg ek, this]

theorem MapRep.run {s : Store R} {ks : List OptName} {m : OptName → Option (Value R)} (h : MapRep s ks m)
    (ops : List (Op R)) (hs : Safe ks ops) : ∃ s' ks', run s ops = .ok s' ∧ MapRep s' ks' (mrun m ops) := by
  induction ops generalizing s ks m with
  | nil => exact ⟨s, ks, rfl, h⟩
  | cons op ops ih =>
    have key : ∃ s1 ks1, Args.step s op = .ok s1 ∧ MapRep s1 ks1 (mstep m op) ∧ Safe ks1 ops := by
      cases op with
      | add n v =>
        cases v with
        | none => exact ⟨s, ks, rfl, h, hs⟩
        | bool v =>
          obtain ⟨s1, e, r⟩ := h.addVal (Val.make n (.bool v)) (by simp [Val.make])
          exact ⟨s1, _, e, r, hs⟩
        | num v =>
          obtain ⟨s1, e, r⟩ := h.addVal (Val.make n (.num v)) (by simp [Val.make])
          exact ⟨s1, _, e, r, hs⟩
        | str v =>
          obtain ⟨s1, e, r⟩ := h.addVal (Val.make n (.str v)) (by simp [Val.make])
          exact ⟨s1, _, e, r, hs⟩
      | remove n =>
        obtain ⟨s1, e, r⟩ := h.remove n hs.1
        exact ⟨s1, _, e, r, hs.2⟩
    obtain ⟨s1, ks1, e1, r1, s1'⟩ := key
    obtain ⟨s2, ks2, e2, r2⟩ := ih r1 s1'
    refine ⟨s2, ks2, ?_, r2⟩
    simp only [Args.run, Res.foldM_cons, e1, Res.bind_ok]
    exact e2

theorem MapRep.find {s : Store R} {ks : List OptName} {m : OptName → Option (Value R)} (h : MapRep s ks m)
    (n : OptName) : ∃ o, Args.find s n = .ok o ∧ o.map (·.value) = m n := by
  obtain ⟨⟨l, hl, hk, hm⟩, _⟩ := h
  exact ⟨_, by unfold Args.find; rw [hl.elems]; rfl, hm n⟩

theorem MapRep.getD {α : Type*} {g s : Store R} {kg ks : List OptName} {mg m : OptName → Option (Value R)}
    (hg : MapRep g kg mg) (h : MapRep s ks m) (acc : Val R → Res α) (accV : Value R → Res α)
    (ha : ∀ v, acc v = accV v.value) (n : OptName) (d : α) :
    Args.getD acc g s n d = match (m n).or (mg n) with | some v => accV v | none => .ok d := by
  obtain ⟨o, e, eo⟩ := h.find n
  obtain ⟨og, eg, eog⟩ := hg.find n
  unfold Args.getD Args.defined Args.get
  rw [e, eg, ← eo, ← eog]
  cases o with
  | some v => simp [ha]
  | none =>
    cases og with
    | some v => simp [ha]
    | none => simp

/-- **C31 (partial).** After any calls to the global object and any calls to an `Args`, reading an
option by name with a default returns the last value given to it in the `Args`, else the last value
given to it in the global object, else the default; reading it as the wrong type throws; a copy reads
the same. Missing: removing an option when exactly 8 are defined, see `C31_counterexample`. -/
theorem C31_args_partial (gops ops : List (Op R)) (junkg junk : Nat → Val R) (hsg : Safe [] gops) (hs : Safe [] ops) :
    ∃ g s, run (empty junkg) gops = .ok g ∧ run (empty junk) ops = .ok s ∧
      ∀ s', (s' = s ∨ s' = copyArgs false junk s) → ∀ n,
        (∀ d, getD boolVal g s' n d =
          match (mrun (fun _ => none) ops n).or (mrun (fun _ => none) gops n) with
          | some (.bool b) => .ok b
          | some _ => .throw
          | none => .ok d) ∧
        (∀ d, getD realVal g s' n d =
          match (mrun (fun _ => none) ops n).or (mrun (fun _ => none) gops n) with
          | some (.num r) => .ok r
          | some _ => .throw
          | none => .ok d) ∧
        (∀ d, getD stringVal g s' n d =
          match (mrun (fun _ => none) ops n).or (mrun (fun _ => none) gops n) with
          | some (.str t) => .ok t
          | some _ => .throw
          | none => .ok d) := by
  obtain ⟨g, kg, eg, rg⟩ := (mapRep_empty junkg).run gops hsg
  obtain ⟨s, ks, e, r⟩ := (mapRep_empty junk).run ops hs
  refine ⟨g, s, eg, e, fun s' hs' n => ?_⟩
  have r' : MapRep s' ks (mrun (fun _ => none) ops) := by
    rcases hs' with rfl | rfl
    · exact r
    · obtain ⟨⟨l, h1, h2⟩, h3⟩ := r
      exact ⟨⟨l, h1.copy, h2⟩, h3⟩
  refine ⟨fun d => ?_, fun d => ?_, fun d => ?_⟩
  · rw [rg.getD r' boolVal (fun v => match v with | .bool b => .ok b | _ => .throw) (fun v => rfl)]
    cases (mrun (fun _ => none) ops n).or (mrun (fun _ => none) gops n) with
    | none => rfl
    | some v => cases v <;> rfl
  · rw [rg.getD r' realVal (fun v => match v with | .num b => .ok b | _ => .throw) (fun v => rfl)]
    cases (mrun (fun _ => none) ops n).or (mrun (fun _ => none) gops n) with
    | none => rfl
    | some v => cases v <;> rfl
  · rw [rg.getD r' stringVal (fun v => match v with | .str b => .ok b | _ => .throw) (fun v => rfl)]
    cases (mrun (fun _ => none) ops n).or (mrun (fun _ => none) gops n) with
    | none => rfl
    | some v => cases v <;> rfl

/-- Adding an option twice, removing another, a global default. -/
example : ∃ g s, run (empty default) [.add [65] (.num 10), .add [67] (.num 5)] = .ok g ∧
    run (empty default) [.add [65, 61] (.num 1), .add [66] (.bool true), .add [65] (.num (2 : Int)), .remove [66]] = .ok s ∧
    getD realVal g s [65] 0 = .ok 2 ∧ getD boolVal g s [66] false = .ok false ∧ getD realVal g s [67] 0 = .ok 5 := by
  obtain ⟨g, s, h1, h2, h3⟩ := C31_args_partial (R := Int) [.add [65] (.num 10), .add [67] (.num 5)]
    [.add [65, 61] (.num 1), .add [66] (.bool true), .add [65] (.num (2 : Int)), .remove [66]] default default
    (by simp only [Safe]) (by simp only [Safe]; decide)
  exact ⟨g, s, h1, h2, (h3 s (.inl rfl) [65]).2.1 0, (h3 s (.inl rfl) [66]).1 false, (h3 s (.inl rfl) [67]).2.1 0⟩

/-- **C31, `operator+=`**: the options of the second object override those of the first (both with
few enough options that no removal is involved). -/
theorem C31_plusEq {s t : Store R} {ks kt : List OptName} {m mt : OptName → Option (Value R)} (hs : MapRep s ks m)
    (ht : MapRep t kt mt) (hv : ∀ n, mt n ≠ some .none) :
    ∃ s' ks', plusEq s t = .ok s' ∧ MapRep s' ks' (fun n => (mt n).or (m n)) := by
  obtain ⟨⟨l, hl, hk, hm⟩, hnd⟩ := ht
  unfold plusEq
  rw [hl.elems, Res.bind_ok]
  have hv' : ∀ v ∈ l, v.value ≠ .none := by
    intro v hvl e
    have hnd' : (l.map (·.name)).Nodup := by rw [hk]; exact hnd
    refine hv v.name ?_
    rw [← hm]
    have : (l.find? fun x => x.name == v.name) = some v := by
      cases hf : l.find? fun x => x.name == v.name with
      | none => exact absurd (List.mem_map_of_mem hvl) (find_map.1 hf)
      | some w =>
        have hw := List.mem_of_find?_eq_some hf
        have he : w.name = v.name := by simpa using List.find?_some hf
        rw [List.inj_on_of_nodup_map hnd' hw hvl he]
    rw [this]
    simp [e]
  have hm' : (fun n => (mt n).or (m n)) = fun n => ((l.find? fun x => x.name == n).map (·.value)).or (m n) := by
    funext n; rw [hm]
  rw [hm']
  have hnd' : (l.map (·.name)).Nodup := by rw [hk]; exact hnd
  clear hm hm' hk hl hnd hv
  induction l generalizing s ks m with
  | nil => exact ⟨s, ks, rfl, by simpa using hs⟩
  | cons v l ih =>
    obtain ⟨s1, e1, r1⟩ := hs.addVal v (hv' v (by simp))
    simp only [List.map_cons, List.nodup_cons] at hnd'
    obtain ⟨s2, k2, e2, r2⟩ := ih r1 (fun w hw => hv' w (by simp [hw])) hnd'.2
    refine ⟨s2, k2, by simp only [Res.foldM_cons, e1, Res.bind_ok, e2], ?_⟩
    convert r2 using 1
    funext n
    simp only [List.find?_cons]
    by_cases e : n = v.name
    · subst e
      have : (l.find? fun x => x.name == v.name) = none := find_map.2 hnd'.1
      simp [this]
    · have : (v.name == n) = false := by simpa using fun h => e h.symm
      simp only [this, if_neg e]

/-- **C31 is false of the code with 8 options.** Eight options are set, the first is removed; the
object still reads correctly, but in a copy of it the first option is back and the eighth is gone. -/
theorem C31_counterexample : ∃ s s' : Store Int,
    run (empty default) ((List.range 8).map fun i => .add [UInt8.ofNat (65 + i)] (.num (i + 1 : Int))) = .ok s ∧
    remove s [65] = .ok s' ∧
    getD realVal (empty default) s' [65] (-1) = .ok (-1) ∧ getD realVal (empty default) s' [72] (-1) = .ok 8 ∧
    getD realVal (empty default) (copyArgs false default s') [65] (-1) = .ok 1 ∧
    getD realVal (empty default) (copyArgs false default s') [72] (-1) = .ok (-1) :=
  ⟨_, _, rfl, rfl, by decide +kernel, by decide +kernel, by decide +kernel, by decide +kernel⟩

end Args

end Verif.Util
