import Verif.Base
import Mathlib.Data.List.Basic
import Mathlib.Tactic.Linarith

/-!
# Storing, copying, writing and merging site sets

Sources: `/repo/itensor/mps/siteset.h:41-131` and `221-602`. A site is modelled by its type and its index:
every site type of the library gives back the index it is built from. The index itself is any type. `int`s do
not overflow. The release build is modelled: `checkQNConsistent` is empty there.
-/

namespace Verif.SiteSet

/-- What a `SiteHolder` holds: a site of some type, with its index. siteset.h:159-186 -/
structure Site (τ ι : Type*) where
  ty : τ
  ix : ι
  deriving DecidableEq, Repr

/-- `SiteStore`: a vector of pointers to sites; a null pointer is `none`. siteset.h:219-227 -/
abbrev Store (τ ι : Type*) := List (Option (Site τ ι))

section
variable {τ ι : Type*}

/-- `SiteStore(N) : sites_(1+N)`; a negative size makes the vector throw. siteset.h:227 -/
def newStore (N : Int) : Res (Store τ ι) :=
  if 1 + N < 0 then .throw else .ok (List.replicate (1 + N).toNat none)

/-- `SiteStore::set`. siteset.h:229-234 -/
def setAt (st : Store τ ι) (i : Int) (s : Site τ ι) : Res (Store τ ι) :=
  if 0 ≤ i ∧ i.toNat < st.length then .ok (st.set i.toNat (some s)) else .throw

/-- `SiteStore::length`. siteset.h:236-237 -/
def lenStore (st : Store τ ι) : Int := if st.isEmpty then 0 else (st.length : Int) - 1

/-- A pointer that is used only when it is not null. -/
def deref : Option (Option (Site τ ι)) → Res (Site τ ι)
  | some (some s) => .ok s
  | _ => .throw

/-- `sites_.at(j)`, checked for null, and then followed. siteset.h:247-269 -/
def siteAt (st : Store τ ι) (j : Int) : Res (Site τ ι) :=
  if 0 ≤ j then deref st[j.toNat]? else .throw

/-- `SiteStore::si`. siteset.h:247-252 -/
def si (st : Store τ ι) (j : Int) : Res ι := (siteAt st j).map Site.ix

/-- `for(j = j0; ...; ++j) sites.set(j,f(j))`, for `n` rounds. siteset.h:277-281, 296-297, 489-492, 500-501, 524-528, 536-540 -/
def fillFrom (f : Nat → Site τ ι) : Nat → Nat → Store τ ι → Res (Store τ ι)
  | 0, _, st => .ok st
  | n + 1, j, st => (setAt st j (f j)).bind fun st' => fillFrom f n (j + 1) st'

/-- The constructors `SiteSet(N,d)`, `BasicSiteSet(N,args)`, `MixedSiteSet(N,args)`: `f j` is the site made for `j`.
siteset.h:273-283, 485-494, 520-530 -/
def build (N : Int) (f : Nat → Site τ ι) : Res (Store τ ι) :=
  (newStore N).bind fun st => fillFrom f N.toNat 1 st

/-- `is(j)` of an `IndexSet`, for `j` in its range. -/
def indAt [Inhabited ι] (is : List ι) (j : Nat) : ι := is.getD (j - 1) default

/-- The constructors from an `IndexSet`; `ty j` is the type of site `j`. siteset.h:291-299, 496-503, 532-542 -/
def ofInds [Inhabited ι] (ty : Nat → τ) (is : List ι) : Res (Store τ ι) :=
  build is.length fun j => ⟨ty j, indAt is j⟩

/-- The type of site `j` in a `MixedSiteSet`. siteset.h:526-527, 538-539, 555-556 -/
def mixed (A B : τ) (j : Nat) : τ := if j % 2 = 1 then A else B

/-! ## Handles: a `SiteSet` is a shared pointer to a store -/

/-- The stores that exist; a `SiteSet` is `none` or the number of its store. Copying a `SiteSet` copies the number.
siteset.h:41-48 -/
abbrev Heap (τ ι : Type*) := List (Store τ ι)

/-- `SiteSet::init`: a new store. siteset.h:430-434 -/
def init (h : Heap τ ι) (st : Store τ ι) : Heap τ ι × Option Nat := (h ++ [st], some h.length)

/-- The store a handle points to. -/
def storeOf (h : Heap τ ι) : Option Nat → Option (Store τ ι)
  | none => none
  | some r => h[r]?

/-- `SiteSet::set`: goes through the pointer, which is not checked. siteset.h:347-352 -/
def setS (h : Heap τ ι) (s : Option Nat) (i : Int) (x : Site τ ι) : Res (Heap τ ι) :=
  match s with
  | none => .ub
  | some r => match h[r]? with
    | none => .ub
    | some st => (setAt st i x).map fun st' => h.set r st'

/-- `SiteSet::length`. siteset.h:302-303 -/
def lenS : Option (Store τ ι) → Int
  | none => 0
  | some st => lenStore st

/-- `SiteSet::operator()(i)`. siteset.h:319-324 -/
def indS (s : Option (Store τ ι)) (i : Int) : Res ι :=
  match s with
  | none => .throw
  | some st => si st i

/-! ## Writing and reading -/

/-- What is in the stream: whole objects. The bytes are the subject of C33. -/
inductive Tok (ι : Type*)
  | int (n : Int)
  | ix (i : ι)
  deriving DecidableEq, Repr

/-- `for j ... sites_->si(j).write(s)` (siteset.h:460-463). -/
def writeFrom (st : Store τ ι) : Nat → Nat → Res (List (Tok ι))
  | 0, _ => .ok []
  | n + 1, j => (si st j).bind fun I => (writeFrom st n (j + 1)).map fun ts => .ix I :: ts

/-- `SiteSet::write`. siteset.h:454-465 -/
def writeS : Option (Store τ ι) → Res (List (Tok ι))
  | none => .ok [.int 0]
  | some st => (writeFrom st (lenStore st).toNat 1).map fun ts => .int (lenStore st) :: ts

/-- The loop of `readType` (siteset.h:444-449). A stream that has no index there gives an unknown index: `ub`. -/
def readFrom (ty : Nat → τ) : Nat → Nat → Store τ ι → List (Tok ι) → Res (Store τ ι × List (Tok ι))
  | 0, _, st, ts => .ok (st, ts)
  | n + 1, j, st, .ix I :: ts => (setAt st j ⟨ty j, I⟩).bind fun st' => readFrom ty n (j + 1) st' ts
  | _ + 1, _, _, _ => .ub

/-- `readType` and `MixedSiteSet::read`, into a `SiteSet` that was `s`. siteset.h:436-452, 544-560 -/
def readS (ty : Nat → τ) (h : Heap τ ι) (s : Option Nat) : List (Tok ι) → Res ((Heap τ ι × Option Nat) × List (Tok ι))
  | .int N :: ts =>
    if 0 < N then
      (newStore N).bind fun st => (readFrom ty N.toNat 1 st ts).map fun r => (init h r.1, r.2)
    else .ok ((h, s), ts)
  | _ => .ub

/-! ## `merge` -/

/-- `inds.at(i) = sites(j); ++i` for `j` from `j0`, `n` times (siteset.h:591-600). -/
def collect (s : Option (Store τ ι)) : Nat → Int → List ι × Nat → Res (List ι × Nat)
  | 0, _, v => .ok v
  | n + 1, j, v => (indS s j).bind fun I =>
      if v.2 < v.1.length then collect s n (j + 1) (v.1.set v.2 I, v.2 + 1) else .throw

/-- `merge(sites1,sites2,args)`; an argument that is not given is `none`. The result is stored as a set whose site `j` is of
type `ty j`. siteset.h:563-602 -/
def merge [Inhabited ι] (ty : Nat → τ) (s1 s2 : Option (Store τ ι)) (start1 end1 start2 end2 : Option Int) :
    Res (Store τ ι) :=
  let a1 := start1.getD 1
  let e1 := end1.getD (lenS s1)
  let a2 := start2.getD 1
  let e2 := end2.getD (lenS s2)
  if e1 ≤ a1 then .throw
  else if e2 ≤ a2 then .throw
  else
    let nsize := (e1 - a1 + 1) + (e2 - a2 + 1)
    (collect s1 (1 + e1 - a1).toNat a1 (List.replicate nsize.toNat default, 0)).bind fun v =>
    (collect s2 (1 + e2 - a2).toNat a2 v).bind fun w => ofInds ty w.1

/-! ## Proofs -/

theorem fillFrom_spec (f : Nat → Site τ ι) : ∀ (n j : Nat) (st : Store τ ι), j + n ≤ st.length →
    ∃ st', fillFrom f n j st = .ok st' ∧ st'.length = st.length ∧
      ∀ k, st'[k]? = if j ≤ k ∧ k < j + n then some (some (f k)) else st[k]?
  | 0, j, st, _ => ⟨st, rfl, rfl, fun k => by rw [if_neg (by omega)]⟩
  | n + 1, j, st, h => by
    obtain ⟨st', h1, h2, h3⟩ := fillFrom_spec f n (j + 1) (st.set j (some (f j))) (by simp; omega)
    refine ⟨st', ?_, by simpa using h2, fun k => ?_⟩
    · simp only [fillFrom, setAt]
      rw [if_pos ⟨by omega, by simp; omega⟩]
      simpa using h1
    · rw [h3 k]
      by_cases hk : j + 1 ≤ k ∧ k < j + 1 + n
      · rw [if_pos hk, if_pos (by omega)]
      · rw [if_neg hk, List.getElem?_set]
        by_cases hj : j = k
        · subst hj
          rw [if_pos rfl, if_pos (by omega), if_pos (by omega)]
        · rw [if_neg hj, if_neg (by omega)]

theorem build_spec (N : Nat) (f : Nat → Site τ ι) :
    ∃ st, build (N : Int) f = .ok st ∧ st.length = N + 1 ∧
      ∀ k, st[k]? = if 1 ≤ k ∧ k ≤ N then some (some (f k)) else if k = 0 then some none else none := by
  obtain ⟨st, h1, h2, h3⟩ := fillFrom_spec f N 1 (List.replicate (1 + N) none) (by simp)
  refine ⟨st, ?_, by simpa [Nat.add_comm] using h2, fun k => ?_⟩
  · simp only [build, newStore]
    rw [if_neg (by omega)]
    have : (1 + (N : Int)).toNat = 1 + N := by omega
    rw [this]
    simpa using h1
  · rw [h3 k]
    by_cases hk : 1 ≤ k ∧ k ≤ N
    · rw [if_pos (by omega), if_pos hk]
    · rw [if_neg (by omega), if_neg hk, List.getElem?_replicate]
      by_cases h0 : k = 0
      · rw [if_pos h0, if_pos (by omega)]
      · rw [if_neg h0, if_neg (by omega)]

theorem siteAt_nat (st : Store τ ι) (j : Nat) : siteAt st (j : Int) = deref st[j]? := by
  simp [siteAt]

/-- C114. The constructors: the set has the length asked for; site `j` from 1 to `N` is the one made for `j`; and every other
number — 0 and the negative ones among them — throws. -/
theorem C114_build (N : Nat) (f : Nat → Site τ ι) :
    ∃ st, build (N : Int) f = .ok st ∧ lenStore st = N ∧
      (∀ j : Nat, 1 ≤ j → j ≤ N → siteAt st j = .ok (f j)) ∧
      ∀ j : Int, (j < 1 ∨ (N : Int) < j) → siteAt st j = .throw := by
  obtain ⟨st, h1, h2, h3⟩ := build_spec N f
  refine ⟨st, h1, ?_, fun j hj hN => ?_, fun j hj => ?_⟩
  · cases st with
    | nil => simp at h2
    | cons a as => simp [lenStore] at h2 ⊢; omega
  · rw [siteAt_nat, h3, if_pos ⟨hj, hN⟩]; rfl
  · by_cases h0 : 0 ≤ j
    · obtain ⟨m, rfl⟩ := Int.eq_ofNat_of_zero_le h0
      rw [siteAt_nat, h3, if_neg (by omega)]
      split <;> rfl
    · simp [siteAt, h0]

/-- Three sites. -/
example : ∃ st, build 3 (fun j => (⟨true, 10 * j⟩ : Site Bool Nat)) = .ok st ∧ siteAt st 2 = .ok ⟨true, 20⟩ ∧
    siteAt st 0 = .throw := ⟨[none, some ⟨true, 10⟩, some ⟨true, 20⟩, some ⟨true, 30⟩], by decide +kernel⟩

/-! ### Copies -/

/-- C114 (copies). `set` changes site `i` of the store behind the handle and nothing else in it, and no other store. It is
never undefined for a handle that points to a store. -/
theorem C114_set_frame (h : Heap τ ι) (r : Nat) (st : Store τ ι) (hr : h[r]? = some st) (i : Int) (x : Site τ ι) :
    ((0 ≤ i ∧ i ≤ lenStore st ∧ st ≠ []) →
      ∃ h', setS h (some r) i x = .ok h' ∧ h'.length = h.length ∧ (∀ r' ≠ r, h'[r']? = h[r']?) ∧
        ∃ st', h'[r]? = some st' ∧ lenStore st' = lenStore st ∧ siteAt st' i = .ok x ∧
          ∀ j ≠ i, siteAt st' j = siteAt st j) ∧
    (¬(0 ≤ i ∧ i ≤ lenStore st ∧ st ≠ []) → setS h (some r) i x = .throw) := by
  have hlen : ∀ st : Store τ ι, st ≠ [] → lenStore st = (st.length : Int) - 1 := by
    intro st h0; cases st with
    | nil => exact absurd rfl h0
    | cons a as => simp [lenStore]
  have hrl : r < h.length := by
    rw [List.getElem?_eq_some_iff] at hr; exact hr.1
  refine ⟨fun ⟨h0, hl, hne⟩ => ?_, fun hn => ?_⟩
  · have hil : i.toNat < st.length := by rw [hlen st hne] at hl; omega
    refine ⟨h.set r (st.set i.toNat (some x)), ?_, by simp, fun r' hr' => ?_, st.set i.toNat (some x), ?_, ?_, ?_, ?_⟩
    · simp [setS, hr, setAt, h0, hil]
    · rw [List.getElem?_set, if_neg (Ne.symm hr')]
    · rw [List.getElem?_set, if_pos rfl, if_pos hrl]
    · rw [hlen st hne, hlen _ (by intro hc; apply hne; simpa using hc)]; simp
    · simp [siteAt, h0, hil, deref]
    · intro j hj
      by_cases hj0 : 0 ≤ j
      · simp only [siteAt, if_pos hj0]
        rw [List.getElem?_set, if_neg (by omega)]
      · simp [siteAt, hj0]
  · have : ¬(0 ≤ i ∧ i.toNat < st.length) := by
      rintro ⟨h0, hl⟩
      have hne : st ≠ [] := by rintro rfl; simp at hl
      exact hn ⟨h0, by rw [hlen st hne]; omega, hne⟩
    simp only [setS, hr, setAt]
    rw [if_neg this]; rfl

/-- Two sites, the first set. -/
example : setS [[none, none, none]] (some 0) 1 (⟨true, 5⟩ : Site Bool Nat) = .ok [[none, some ⟨true, 5⟩, none]] := by
  decide +kernel

/-- Against C114: a copy of a site set is not independent of it. After `auto b = a; b.set(1,x)` site 1 of `a` is `x`. -/
theorem C114_copy_counterexample :
    ∃ (h h' : Heap Unit Nat) (a b : Option Nat) (x : Site Unit Nat), b = a ∧
      (storeOf h a).map (fun st => si st 1) = some (.ok 7) ∧ setS h b 1 x = .ok h' ∧
      (storeOf h' a).map (fun st => si st 1) = some (.ok 8) :=
  ⟨[[none, some ⟨(), 7⟩]], [[none, some ⟨(), 8⟩]], some 0, some 0, ⟨(), 8⟩, by decide +kernel⟩

/-- Against C114: `set` on a default constructed site set goes through a null pointer, where every other member throws. -/
theorem C114_null_counterexample (h : Heap τ ι) (i : Int) (x : Site τ ι) :
    setS h none i x = .ub ∧ indS (none : Option (Store τ ι)) i = .throw := ⟨rfl, rfl⟩

/-! ### Writing and reading -/

theorem write_read (ty : Nat → τ) (st : Store τ ι) (rest : List (Tok ι)) :
    ∀ (n j : Nat) (ts : List (Tok ι)) (t0 : Store τ ι), writeFrom st n j = .ok ts → j + n ≤ t0.length →
      ∃ t, readFrom ty n j t0 (ts ++ rest) = .ok (t, rest) ∧ t.length = t0.length ∧
        (∀ k : Nat, j ≤ k → k < j + n → ∃ I, si st k = .ok I ∧ t[k]? = some (some ⟨ty k, I⟩)) ∧
        ∀ k, (k < j ∨ j + n ≤ k) → t[k]? = t0[k]?
  | 0, j, ts, t0, hw, _ => by
    simp only [writeFrom, Res.ok.injEq] at hw
    subst hw
    exact ⟨t0, rfl, rfl, fun k h1 h2 => by omega, fun _ _ => rfl⟩
  | n + 1, j, ts, t0, hw, hl => by
    simp only [writeFrom, Res.bind_eq_ok] at hw
    obtain ⟨I, hI, hw⟩ := hw
    cases hw2 : writeFrom st n (j + 1) with
    | throw => simp [hw2, Res.map] at hw
    | ub => simp [hw2, Res.map] at hw
    | ok ts2 =>
      simp only [hw2, Res.map_ok, Res.ok.injEq] at hw
      subst hw
      obtain ⟨t, h1, h2, h3, h4⟩ := write_read ty st rest n (j + 1) ts2 (t0.set j (some ⟨ty j, I⟩)) hw2 (by simp; omega)
      refine ⟨t, ?_, by simpa using h2, fun k hk1 hk2 => ?_, fun k hk => ?_⟩
      · simp only [List.cons_append, readFrom, setAt]
        rw [if_pos ⟨by omega, by simp; omega⟩]
        simpa using h1
      · by_cases hk : k = j
        · subst hk
          refine ⟨I, hI, ?_⟩
          rw [h4 k (by omega), List.getElem?_set, if_pos rfl, if_pos (by omega)]
        · exact h3 k (by omega) (by omega)
      · rw [h4 k (by omega), List.getElem?_set, if_neg (by omega)]

theorem writeFrom_ok (st : Store τ ι) : ∀ (n j : Nat), (∀ k : Nat, j ≤ k → k < j + n → ∃ I, si st k = .ok I) →
    ∃ ts, writeFrom st n j = .ok ts
  | 0, _, _ => ⟨[], rfl⟩
  | n + 1, j, h => by
    obtain ⟨I, hI⟩ := h j le_rfl (by omega)
    obtain ⟨ts, hts⟩ := writeFrom_ok st n (j + 1) fun k h1 h2 => h k (by omega) (by omega)
    exact ⟨.ix I :: ts, by simp [writeFrom, hI, hts]⟩

/-- C114 (writing and reading, of a set that is not empty). When every site is assigned, `write` succeeds, and what it wrote,
read back with the sites of type `ty`, gives a set of the same length with the same index at every site, site `j` of type `ty j`,
and leaves what follows in the stream. The set is a new one: no store that existed is changed, so copies of the one read into
keep their sites. -/
theorem C114_roundtrip_partial (ty : Nat → τ) (st : Store τ ι) (N : Nat) (hN : 0 < N) (hst : lenStore st = N)
    (hall : ∀ j : Nat, 1 ≤ j → j ≤ N → ∃ I, si st j = .ok I)
    (h : Heap τ ι) (s : Option Nat) (rest : List (Tok ι)) :
    ∃ ts, writeS (some st) = .ok ts ∧
      ∃ h' st', readS ty h s (ts ++ rest) = .ok ((h', some h.length), rest) ∧
        storeOf h' (some h.length) = some st' ∧ (∀ r < h.length, h'[r]? = h[r]?) ∧
        lenStore st' = N ∧ siteAt st' 0 = .throw ∧
        ∀ j : Nat, 1 ≤ j → j ≤ N → ∃ I, si st j = .ok I ∧ siteAt st' j = .ok ⟨ty j, I⟩ := by
  obtain ⟨ts, hts⟩ := writeFrom_ok st N 1 fun k h1 h2 => hall k h1 (by omega)
  refine ⟨.int N :: ts, by simp [writeS, hst, hts], ?_⟩
  obtain ⟨t, h1, h2, h3, h4⟩ := write_read ty st rest N 1 ts (List.replicate (1 + N) none) hts (by simp)
  have e : (1 + (N : Int)).toNat = 1 + N := by omega
  refine ⟨h ++ [t], t, ?_, by simp [storeOf], fun r hr => by simp [List.getElem?_append, hr], ?_, ?_, fun j hj1 hj2 => ?_⟩
  · simp only [List.cons_append, readS]
    rw [if_pos (by omega), newStore, if_neg (by omega), e]
    simp [h1, init]
  · cases t with
    | nil => simp at h2; omega
    | cons a as => simp [lenStore] at h2 ⊢; omega
  · have := h4 0 (by omega)
    simp [siteAt, this, deref]
  · obtain ⟨I, hI, hk⟩ := h3 j hj1 (by omega)
    exact ⟨I, hI, by rw [siteAt_nat, hk]; rfl⟩

/-- Two sites are written and read into a set of one site. -/
example : writeS (some [none, some ⟨true, 5⟩, some ⟨true, 6⟩] : Option (Store Bool Nat)) = .ok [.int 2, .ix 5, .ix 6] ∧
    readS (fun _ => true) [[none, some ⟨true, 9⟩]] (some 0) [.int 2, .ix 5, .ix 6, .int 1] =
      .ok (([[none, some ⟨true, 9⟩], [none, some ⟨true, 5⟩, some ⟨true, 6⟩]], some 1), [.int 1]) := ⟨rfl, rfl⟩

/-- `write` throws when a site within the length was never assigned. -/
theorem C114_write_unassigned (st : Store τ ι) (j : Nat) (h1 : 1 ≤ j) (h2 : (j : Int) ≤ lenStore st)
    (hj : si st j = .throw) : writeS (some st) = .throw := by
  have hub : ∀ k : Nat, si st k ≠ .ub := by
    intro k; simp only [si, siteAt_nat]
    rcases st[k]? with _ | _ | s <;> simp [deref, Res.map]
  have key : ∀ n i : Nat, i ≤ j → j < i + n → writeFrom st n i = .throw := by
    intro n
    induction n with
    | zero => intro i a b; omega
    | succ n ih =>
      intro i a b
      simp only [writeFrom]
      by_cases hij : i = j
      · subst hij; simp [hj]
      · cases hs : si st i with
        | throw => rfl
        | ub => exact absurd hs (hub i)
        | ok I => simp [ih (i + 1) (by omega) (by omega), Res.map]
  simp [writeS, key (lenStore st).toNat 1 h1 (by omega), Res.map]

/-- A set of two sites made by `SiteSet(2)`, one of them assigned. -/
example : writeS (some [none, some ⟨true, 5⟩, none] : Option (Store Bool Nat)) = .throw := by decide +kernel

/-- Against C114: reading an empty site set into one that is not empty leaves the old sites in place. -/
theorem C114_read_counterexample :
    ∃ (h : Heap Unit Nat) (s : Option Nat) (ts : List (Tok Nat)),
      writeS (none : Option (Store Unit Nat)) = .ok ts ∧ readS (fun _ => ()) h s ts = .ok ((h, s), []) ∧
      lenS (storeOf h s) = 1 :=
  ⟨[[none, some ⟨(), 7⟩]], some 0, [.int 0], rfl, rfl, rfl⟩

/-! ### `merge` -/

theorem collect_ok (s : Option (Store τ ι)) (x : Int → ι) : ∀ (n : Nat) (j : Int) (v : List ι) (i : Nat),
    (∀ k : Int, j ≤ k → k < j + n → indS s k = .ok (x k)) → i + n ≤ v.length →
    ∃ v', collect s n j (v, i) = .ok (v', i + n) ∧ v'.length = v.length ∧
      ∀ p, v'[p]? = if i ≤ p ∧ p < i + n then some (x (j + ((p - i : Nat) : Int))) else v[p]?
  | 0, j, v, i, _, _ => ⟨v, rfl, rfl, fun p => by rw [if_neg (by omega)]⟩
  | n + 1, j, v, i, h, hl => by
    obtain ⟨v', h1, h2, h3⟩ := collect_ok s x n (j + 1) (v.set i (x j)) (i + 1)
      (fun k a b => h k (by omega) (by push_cast; omega)) (by simp; omega)
    refine ⟨v', ?_, by simpa using h2, fun p => ?_⟩
    · simp only [collect]
      rw [h j le_rfl (by push_cast; omega), Res.bind_ok, if_pos (by omega), h1]
      congr 2; omega
    · rw [h3 p]
      by_cases hp : i + 1 ≤ p ∧ p < i + 1 + n
      · rw [if_pos hp, if_pos (by omega)]
        congr 2; omega
      · rw [if_neg hp, List.getElem?_set]
        by_cases hi : i = p
        · subst hi
          rw [if_pos rfl, if_pos (by omega), if_pos (by omega)]
          simp
        · rw [if_neg hi, if_neg (by omega)]

theorem indS_ne_ub (s : Option (Store τ ι)) (j : Int) : indS s j ≠ .ub := by
  cases s with
  | none => simp [indS]
  | some st =>
    simp only [indS, si, siteAt]
    split
    · rcases st[j.toNat]? with _ | _ | s <;> simp [deref, Res.map]
    · simp [Res.map]

theorem collect_throw (s : Option (Store τ ι)) (k : Int) (hk : indS s k = .throw) :
    ∀ (n : Nat) (j : Int) (v : List ι × Nat), j ≤ k → k < j + n → collect s n j v = .throw
  | 0, j, v, a, b => by simp at b; omega
  | n + 1, j, v, a, b => by
    simp only [collect]
    by_cases hj : j = k
    · subst hj; simp [hk]
    · cases hs : indS s j with
      | throw => rfl
      | ub => exact absurd hs (indS_ne_ub s j)
      | ok I =>
        rw [Res.bind_ok]
        split
        · exact collect_throw s k hk n (j + 1) _ (by omega) (by push_cast at b; omega)
        · rfl

theorem collect_ne_ub (s : Option (Store τ ι)) : ∀ (n : Nat) (j : Int) (v : List ι × Nat), collect s n j v ≠ .ub
  | 0, j, v => by simp [collect]
  | n + 1, j, v => by
    simp only [collect]
    cases hs : indS s j with
    | throw => simp
    | ub => exact absurd hs (indS_ne_ub s j)
    | ok I =>
      rw [Res.bind_ok]
      split
      · exact collect_ne_ub s n (j + 1) _
      · simp

variable [Inhabited ι]

/-- C114 (`merge`). When both ranges have at least two sites and all their sites are assigned, the result has as many sites as
the two ranges together: first the indices of the first range in order, then those of the second, site `j` of type `ty j`. -/
theorem C114_merge (ty : Nat → τ) (s1 s2 : Option (Store τ ι)) (start1 end1 start2 end2 : Option Int)
    (a1 e1 a2 e2 : Int) (ha1 : start1.getD 1 = a1) (he1 : end1.getD (lenS s1) = e1)
    (ha2 : start2.getD 1 = a2) (he2 : end2.getD (lenS s2) = e2) (h1 : a1 < e1) (h2 : a2 < e2)
    (x y : Int → ι) (hx : ∀ k, a1 ≤ k → k ≤ e1 → indS s1 k = .ok (x k))
    (hy : ∀ k, a2 ≤ k → k ≤ e2 → indS s2 k = .ok (y k)) :
    ∃ st, merge ty s1 s2 start1 end1 start2 end2 = .ok st ∧
      lenStore st = (e1 - a1 + 1) + (e2 - a2 + 1) ∧
      (∀ k : Nat, (k : Int) ≤ e1 - a1 → siteAt st (1 + k) = .ok ⟨ty (1 + k), x (a1 + k)⟩) ∧
      ∀ k : Nat, (k : Int) ≤ e2 - a2 →
        siteAt st ((e1 - a1 + 1) + (1 + k)) = .ok ⟨ty ((e1 - a1 + 1).toNat + (1 + k)), y (a2 + k)⟩ := by
  obtain ⟨n1, hn1⟩ := Int.eq_ofNat_of_zero_le (show 0 ≤ e1 - a1 + 1 by omega)
  obtain ⟨n2, hn2⟩ := Int.eq_ofNat_of_zero_le (show 0 ≤ e2 - a2 + 1 by omega)
  have t1 : (1 + e1 - a1).toNat = n1 := by omega
  have t2 : (1 + e2 - a2).toNat = n2 := by omega
  have t3 : ((e1 - a1 + 1) + (e2 - a2 + 1)).toNat = n1 + n2 := by omega
  obtain ⟨v, v1, v2, v3⟩ := collect_ok s1 x n1 a1 (List.replicate (n1 + n2) default) 0
    (fun k a b => hx k a (by omega)) (by simp)
  obtain ⟨w, w1, w2, w3⟩ := collect_ok s2 y n2 a2 v (0 + n1)
    (fun k a b => hy k a (by omega)) (by rw [v2]; simp)
  have wl : w.length = n1 + n2 := by rw [w2, v2]; simp
  obtain ⟨st, b1, b2, b3, b4⟩ := C114_build w.length (fun j => (⟨ty j, indAt w j⟩ : Site τ ι))
  refine ⟨st, ?_, ?_, fun k hk => ?_, fun k hk => ?_⟩
  · simp only [merge, ha1, he1, ha2, he2]
    rw [if_neg (by omega), if_neg (by omega), t1, t2, t3, v1, Res.bind_ok, w1, Res.bind_ok]
    exact b1
  · rw [b2, wl]; push_cast; omega
  · have := b3 (1 + k) (by omega) (by rw [wl]; omega)
    rw [show (1 + (k : Int)) = ((1 + k : Nat) : Int) by push_cast; rfl, this]
    have hw : w[k]? = some (x (a1 + k)) := by
      rw [w3 k, if_neg (by omega), v3 k, if_pos (by omega)]; simp
    simp [indAt, hw]
  · have := b3 (n1 + (1 + k)) (by omega) (by rw [wl]; omega)
    rw [show (e1 - a1 + 1) + (1 + (k : Int)) = ((n1 + (1 + k) : Nat) : Int) by push_cast; omega, this,
      show (e1 - a1 + 1).toNat = n1 by omega]
    have hw : w[n1 + k]? = some (y (a2 + k)) := by
      rw [w3 (n1 + k), if_pos (by omega)]
      congr 3; omega
    simp [indAt, show n1 + (1 + k) - 1 = n1 + k by omega, hw]

/-- `merge` refuses everything else, and is never undefined: a range that is not of two or more sites, and a range with a site
that is not in the set or not assigned. -/
theorem C114_merge_refuses (ty : Nat → τ) (s1 s2 : Option (Store τ ι)) (start1 end1 start2 end2 : Option Int)
    (h : end1.getD (lenS s1) ≤ start1.getD 1 ∨ end2.getD (lenS s2) ≤ start2.getD 1 ∨
      (∃ k, start1.getD 1 ≤ k ∧ k ≤ end1.getD (lenS s1) ∧ indS s1 k = .throw) ∨
      ∃ k, start2.getD 1 ≤ k ∧ k ≤ end2.getD (lenS s2) ∧ indS s2 k = .throw) :
    merge ty s1 s2 start1 end1 start2 end2 = .throw := by
  simp only [merge]
  split
  · rfl
  split
  · rfl
  rename_i n1 n2
  rcases h with h | h | ⟨k, k1, k2, k3⟩ | ⟨k, k1, k2, k3⟩
  · exact absurd h n1
  · exact absurd h n2
  · rw [collect_throw s1 k k3 _ _ _ k1 (by omega)]; rfl
  · generalize hc : collect s1 _ _ _ = c
    cases c with
    | throw => rfl
    | ub => exact absurd hc (collect_ne_ub _ _ _ _)
    | ok v =>
      rw [Res.bind_ok, collect_throw s2 k k3 _ _ _ k1 (by omega)]; rfl

/-- Sites 2 and 3 of one set, and both sites of another. -/
example : merge (fun _ => ()) (some [none, some ⟨(), 1⟩, some ⟨(), 2⟩, some ⟨(), 3⟩])
    (some [none, some ⟨(), 8⟩, some ⟨(), 9⟩]) (some 2) none none none =
    .ok ([none, some ⟨(), 2⟩, some ⟨(), 3⟩, some ⟨(), 8⟩, some ⟨(), 9⟩] : Store Unit Nat) := by decide +kernel

/-- A set of one site cannot be merged, not even as a whole. -/
example : merge (fun _ => ()) (some [none, some ⟨(), 1⟩]) (some [none, some ⟨(), 8⟩, some ⟨(), 9⟩])
    none none none none = (.throw : Res (Store Unit Nat)) := by decide +kernel

/-- C114 (`merge` of `MixedSiteSet`s). The merged set holds the very sites of the two ranges, types included, when the first
range starts at an odd site, and the second at a site of the same parity as the place it is put. -/
theorem C114_merge_mixed_partial (A B : τ) (t1 t2 : Store τ ι) (a1 e1 a2 e2 : Nat) (h1 : a1 < e1) (h2 : a2 < e2)
    (ho : a1 % 2 = 1) (hp : (e1 - a1 + 1 + 1) % 2 = a2 % 2) (x y : Nat → ι)
    (hx : ∀ k : Nat, a1 ≤ k → k ≤ e1 → siteAt t1 k = .ok ⟨mixed A B k, x k⟩)
    (hy : ∀ k : Nat, a2 ≤ k → k ≤ e2 → siteAt t2 k = .ok ⟨mixed A B k, y k⟩) :
    ∃ st, merge (mixed A B) (some t1) (some t2) (some a1) (some e1) (some a2) (some e2) = .ok st ∧
      (∀ k : Nat, k ≤ e1 - a1 → siteAt st (1 + k) = siteAt t1 (a1 + k)) ∧
      ∀ k : Nat, k ≤ e2 - a2 → siteAt st ((e1 - a1 + 1) + (1 + k)) = siteAt t2 (a2 + k) := by
  obtain ⟨st, m1, _, m2, m3⟩ := C114_merge (mixed A B) (some t1) (some t2) (some a1) (some e1) (some a2) (some e2)
    a1 e1 a2 e2 rfl rfl rfl rfl (by omega) (by omega) (fun k => x k.toNat) (fun k => y k.toNat)
    (fun k b c => by
      obtain ⟨m, rfl⟩ := Int.eq_ofNat_of_zero_le (show 0 ≤ k by omega)
      simp only [indS, si]
      rw [hx m (by omega) (by omega)]; rfl)
    (fun k b c => by
      obtain ⟨m, rfl⟩ := Int.eq_ofNat_of_zero_le (show 0 ≤ k by omega)
      simp only [indS, si]
      rw [hy m (by omega) (by omega)]; rfl)
  refine ⟨st, m1, fun k hk => ?_, fun k hk => ?_⟩
  · have e := hx (a1 + k) (by omega) (by omega)
    push_cast at e
    rw [m2 k (by omega), e, show ((a1 : Int) + k).toNat = a1 + k by omega]
    simp only [mixed]
    rw [show (1 + k) % 2 = (a1 + k) % 2 by omega]
  · have e := hy (a2 + k) (by omega) (by omega)
    push_cast at e
    rw [m3 k (by omega), e, show ((a2 : Int) + k).toNat = a2 + k by omega,
      show ((e1 : Int) - a1 + 1).toNat = e1 - a1 + 1 by omega]
    simp only [mixed]
    rw [show (e1 - a1 + 1 + (1 + k)) % 2 = (a2 + k) % 2 by omega]

/-- Two sites and two sites. -/
example : merge (mixed true false) (some [none, some ⟨true, 1⟩, some ⟨false, 2⟩])
    (some [none, some ⟨true, 8⟩, some ⟨false, 9⟩]) (some 1) (some 2) (some 1) (some 2) =
    .ok ([none, some ⟨true, 1⟩, some ⟨false, 2⟩, some ⟨true, 8⟩, some ⟨false, 9⟩] : Store Bool Nat) := by decide +kernel

/-- Against C114: merging two `MixedSiteSet`s of three sites each gives a set whose site 4 has the index of the first site of
the second, which is of type `A`, in a site of type `B`. -/
theorem C114_merge_mixed_counterexample :
    ∃ (s1 s2 st : Store Bool Nat),
      build 3 (fun j => ⟨mixed true false j, j⟩) = .ok s1 ∧ build 3 (fun j => ⟨mixed true false j, 10 + j⟩) = .ok s2 ∧
      merge (mixed true false) (some s1) (some s2) none none none none = .ok st ∧
      siteAt s2 1 = .ok ⟨true, 11⟩ ∧ siteAt st 4 = .ok ⟨false, 11⟩ :=
  ⟨[none, some ⟨true, 1⟩, some ⟨false, 2⟩, some ⟨true, 3⟩], [none, some ⟨true, 11⟩, some ⟨false, 12⟩, some ⟨true, 13⟩],
    [none, some ⟨true, 1⟩, some ⟨false, 2⟩, some ⟨true, 3⟩, some ⟨false, 11⟩, some ⟨true, 12⟩, some ⟨false, 13⟩],
    by decide +kernel⟩

end

end Verif.SiteSet
