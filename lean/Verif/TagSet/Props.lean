import Verif.TagSet.Lemmas

/-!
# Tag sets: properties C01, C02, C03, C04

Specification: a tag set is a *set of names* together with a prime level.  The specification is
`Spec` below; it does not mention arrays, slots, keys or sizes.
-/

namespace Verif.TagSet

/-- What the user sees: which names are present, and the prime level. -/
structure Spec where
  mem : Tag → Prop
  plev : Int

/-- Names of a tag set as a set, with its prime level. -/
def TagSet.abs (ts : TagSet) : Spec := ⟨(· ∈ ts.live), ts.plev⟩

namespace Spec

/-- A fresh tag set: no names, no prime level. -/
def init : Spec := ⟨fun _ => False, -1⟩

/-- Add one name; an integer name sets the prime level, the empty name does nothing. -/
def add (s : Spec) (t : Tag) : Spec :=
  if t.toInt ≥ 0 then { s with plev := t.toInt }
  else { s with mem := fun u => s.mem u ∨ (u = t ∧ t ≠ Tag.empty) }

def remove (s : Spec) (t : Tag) : Spec := { s with mem := fun u => s.mem u ∧ u ≠ t }

def union (s a : Spec) : Spec := { s with mem := fun u => s.mem u ∨ a.mem u }
def diff (s a : Spec) : Spec := { s with mem := fun u => s.mem u ∧ ¬ a.mem u }

/-- `has s a`: all names of `a` are in `s`, and the prime level matches if `a` names one. -/
def has (s a : Spec) : Prop := (a.plev ≥ 0 → s.plev = a.plev) ∧ ∀ u, a.mem u → s.mem u

open Classical in
/-- Replace: nothing happens unless `rem` is contained. -/
noncomputable def replace (s rem add : Spec) : Spec :=
  if s.has rem then
    { mem := fun u => (s.mem u ∧ ¬ rem.mem u) ∨ add.mem u
      plev := if rem.plev ≥ 0 then add.plev else s.plev }
  else s

/-- Effect of one successful API call. -/
noncomputable def step (s : Spec) : TagSet.Op → Spec
  | .addTag t => s.add t
  | .removeTag t => s.remove t
  | .addTags ts => s.union ts.abs
  | .removeTags ts => s.diff ts.abs
  | .setTags ts => { ts.abs with plev := if ts.plev < 0 then 0 else ts.plev }
  | .noTags => ⟨fun _ => False, 0⟩
  | .replaceTags r a => s.replace r.abs a.abs
  | .setPrime p => { s with plev := p }
  | .prime n => { s with plev := s.plev + n }

end Spec

namespace TagSet

/-- Tag sets passed as arguments. -/
def Op.args : Op → List TagSet
  | .addTags ts | .removeTags ts | .setTags ts => [ts]
  | .replaceTags r a => [r, a]
  | _ => []

/-- Tag sets that some program using the API can hold. -/
inductive Reach : TagSet → Prop
  | init : Reach default
  | step {T T' : TagSet} {op : Op} : Reach T → (∀ a, a ∈ op.args → Reach a) →
      T.step op = .ok T' → Reach T'

theorem Spec.ext' {a b : Spec} (h1 : ∀ u, a.mem u ↔ b.mem u) (h2 : a.plev = b.plev) : a = b := by
  cases a; cases b
  simp only [Spec.mk.injEq]
  exact ⟨funext fun u => propext (h1 u), h2⟩

theorem addTag_ok {T T' : TagSet} {t : Tag} (h : Inv T) (hr : T.addTag t = .ok T') :
    Inv T' ∧ T'.abs = T.abs.add t := by
  by_cases hi : t.toInt ≥ 0
  · simp only [addTag, hi, if_true] at hr
    split at hr
    · cases hr
    · cases hr
      refine ⟨⟨h.len, h.size_le, h.sorted, h.nonempty, h.noInt⟩, ?_⟩
      simp [abs, Spec.add, hi, live]
  · by_cases hs : T.size = maxTags
    · simp [addTag, hi, hs] at hr
    · by_cases hn : t ∈ T.live
      · have : (T.tagPosition t).isNone = false := by
          have := tagPosition_isSome.2 hn
          cases hq : T.tagPosition t <;> simp_all
        simp [addTag, hi, hs, this] at hr
        subst hr
        refine ⟨h, Spec.ext' ?_ ?_⟩
        · intro u; simp only [abs, Spec.add, hi, if_false]
          constructor
          · exact Or.inl
          · rintro (h | ⟨rfl, _⟩) <;> assumption
        · simp [abs, Spec.add, hi]
      · by_cases he : t = Tag.empty
        · simp [addTag, hi, hs, he] at hr
          have hi' : ¬ Tag.empty.toInt ≥ 0 := he ▸ hi
          simp only [ge_iff_le] at hi'
          rw [if_neg hi'] at hr
          cases hr
          refine ⟨h, Spec.ext' ?_ ?_⟩
          · intro u; simp [abs, Spec.add, hi', he]
          · simp [abs, Spec.add, hi', he]
        · obtain ⟨ts', h1, h2, h3, _, h5, _⟩ := addTag_name h (by omega)
            (by have := h.size_le; omega) hn he
          rw [h1] at hr; cases hr
          refine ⟨h2, Spec.ext' ?_ ?_⟩
          · intro u; simp only [abs, Spec.add, hi, if_false, h5]
            constructor
            · rintro (h | h)
              · exact Or.inr ⟨h, he⟩
              · exact Or.inl h
            · rintro (h | ⟨h, _⟩)
              · exact Or.inr h
              · exact Or.inl h
          · simp [abs, Spec.add, hi, h3]

theorem removeTag_ok {T T' : TagSet} {t : Tag} (h : Inv T) (hr : T.removeTag t = .ok T') :
    Inv T' ∧ T'.abs = T.abs.remove t := by
  by_cases ht : t ∈ T.live
  · by_cases hs : T.size = maxTags
    · rw [removeTag_full h ht hs] at hr; cases hr
    · obtain ⟨ts', h1, h2, h3, _, h5, _⟩ := removeTag_present h ht (by have := h.size_le; omega)
      rw [h1] at hr; cases hr
      exact ⟨h2, Spec.ext' (fun u => by simp [abs, Spec.remove, h5]) (by simp [abs, Spec.remove, h3])⟩
  · rw [removeTag_absent ht] at hr; cases hr
    refine ⟨h, Spec.ext' (fun u => ?_) rfl⟩
    simp only [abs, Spec.remove]
    exact ⟨fun hu => ⟨hu, fun e => ht (e ▸ hu)⟩, fun hu => hu.1⟩

theorem foldAdd_ok {ts : List Tag} : ∀ {T T' : TagSet}, Inv T → (∀ t ∈ ts, t.toInt < 0) →
    (∀ t ∈ ts, t ≠ Tag.empty) → Res.foldM addTag T ts = .ok T' →
    Inv T' ∧ T'.plev = T.plev ∧ ∀ u, u ∈ T'.live ↔ u ∈ T.live ∨ u ∈ ts := by
  induction ts with
  | nil => intro T T' h _ _ hr; cases hr; exact ⟨h, rfl, by simp⟩
  | cons t ts ih =>
    intro T T' h hi he hr
    simp only [Res.foldM_cons, Res.bind_eq_ok] at hr
    obtain ⟨T1, h1, h2⟩ := hr
    obtain ⟨i1, a1⟩ := addTag_ok h h1
    have hti : ¬ t.toInt ≥ 0 := by have := hi t (by simp); omega
    have hp : T1.plev = T.plev := by
      have := congrArg Spec.plev a1; simpa [abs, Spec.add, hti] using this
    have hm : ∀ u, u ∈ T1.live ↔ u ∈ T.live ∨ u = t := by
      intro u
      have := congrFun (congrArg Spec.mem a1) u
      simp only [abs, Spec.add, hti, if_false] at this
      rw [this]; simp [he t (by simp)]
    obtain ⟨i2, p2, m2⟩ := ih i1 (fun u hu => hi u (by simp [hu])) (fun u hu => he u (by simp [hu])) h2
    refine ⟨i2, by rw [p2, hp], fun u => ?_⟩
    rw [m2, hm]; simp only [List.mem_cons]; grind

theorem foldRemove_ok {ts : List Tag} : ∀ {T T' : TagSet}, Inv T →
    Res.foldM removeTag T ts = .ok T' →
    Inv T' ∧ T'.plev = T.plev ∧ ∀ u, u ∈ T'.live ↔ u ∈ T.live ∧ u ∉ ts := by
  induction ts with
  | nil => intro T T' h hr; cases hr; exact ⟨h, rfl, by simp⟩
  | cons t ts ih =>
    intro T T' h hr
    simp only [Res.foldM_cons, Res.bind_eq_ok] at hr
    obtain ⟨T1, h1, h2⟩ := hr
    obtain ⟨i1, a1⟩ := removeTag_ok h h1
    have hp : T1.plev = T.plev := congrArg Spec.plev a1
    have hm : ∀ u, u ∈ T1.live ↔ u ∈ T.live ∧ u ≠ t := by
      intro u
      have := congrFun (congrArg Spec.mem a1) u
      simp only [abs, Spec.remove] at this
      rw [this]
    obtain ⟨i2, p2, m2⟩ := ih i1 h2
    refine ⟨i2, by rw [p2, hp], fun u => ?_⟩
    rw [m2, hm]; simp only [List.mem_cons]; grind

/-- `hasTags` decides containment of names plus the prime-level condition. -/
theorem hasTags_iff (T ts : TagSet) : T.hasTags ts = true ↔ T.abs.has ts.abs := by
  simp only [hasTags, Spec.has, abs]
  by_cases hp : ts.plev ≥ 0
  · by_cases hq : T.plev = ts.plev
    · simp [hp, hq, tagPosition_isSome]
    · simp [hp, hq]
  · simp [hp, tagPosition_isSome]

theorem setTags_ok {T ts : TagSet} (hT : Inv T) (hts : Inv ts) :
    Inv (T.setTags ts) ∧ (T.setTags ts).live = ts.live := by
  have hl : (T.setTags ts).live = ts.live := by
    simp only [setTags, live]
    rw [List.take_append_of_le_length (by rw [List.length_take, hts.len]; have := hts.size_le
                                          omega), List.take_take]
    congr 1; omega
  refine ⟨⟨?_, hts.size_le, hl ▸ hts.sorted, hl ▸ hts.nonempty, hl ▸ hts.noInt⟩, hl⟩
  have := hT.len; have := hts.len; have := hT.size_le; have := hts.size_le
  simp only [setTags, List.length_append, List.length_take, List.length_drop]; omega

/-- One step of the API against the specification. -/
theorem step_ok {T T' : TagSet} {op : Op} (h : Inv T) (ha : ∀ a ∈ op.args, Inv a)
    (hr : T.step op = .ok T') : Inv T' ∧ T'.abs = T.abs.step op := by
  cases op with
  | addTag t => exact addTag_ok h hr
  | removeTag t => exact removeTag_ok h hr
  | addTags ts =>
    have hts := ha ts (by simp [Op.args])
    simp only [step, addTags] at hr
    split at hr
    · cases hr
    · obtain ⟨i, p, m⟩ := foldAdd_ok h hts.noInt hts.nonempty hr
      exact ⟨i, Spec.ext' (fun u => by simp [abs, Spec.step, Spec.union, m]) p⟩
  | removeTags ts =>
    simp only [step, removeTags] at hr
    split at hr
    · cases hr
    · obtain ⟨i, p, m⟩ := foldRemove_ok h hr
      exact ⟨i, Spec.ext' (fun u => by simp [abs, Spec.step, Spec.diff, m]) p⟩
  | setTags ts =>
    have hts := ha ts (by simp [Op.args])
    cases hr
    obtain ⟨i, l⟩ := setTags_ok h hts
    exact ⟨i, Spec.ext' (fun u => by simp [abs, Spec.step, l]) rfl⟩
  | noTags =>
    cases hr
    exact ⟨⟨h.len, by simp [noTags], by simp [noTags, live, Sorted], by simp [noTags, live],
      by simp [noTags, live]⟩, Spec.ext' (fun u => by simp [abs, Spec.step, noTags, live]) rfl⟩
  | setPrime p =>
    cases hr
    exact ⟨⟨h.len, h.size_le, h.sorted, h.nonempty, h.noInt⟩, rfl⟩
  | prime n =>
    cases hr
    exact ⟨⟨h.len, h.size_le, h.sorted, h.nonempty, h.noInt⟩, rfl⟩
  | replaceTags r a =>
    have har := ha r (by simp [Op.args])
    have haa := ha a (by simp [Op.args])
    simp only [step, replaceTags] at hr
    split at hr
    · cases hr
    · by_cases hh : T.hasTags r = true
      · have hs := (hasTags_iff T r).1 hh
        simp only [hh, Bool.not_true, Bool.false_eq_true, if_false, Res.bind_eq_ok] at hr
        obtain ⟨T2, h2, h3⟩ := hr
        have hT1 : Inv (if r.plev ≥ 0 then { T with plev := a.plev } else T) := by
          split
          · exact ⟨h.len, h.size_le, h.sorted, h.nonempty, h.noInt⟩
          · exact h
        obtain ⟨i2, p2, m2⟩ := foldRemove_ok hT1 h2
        obtain ⟨i3, p3, m3⟩ := foldAdd_ok i2 haa.noInt haa.nonempty h3
        refine ⟨i3, Spec.ext' (fun u => ?_) ?_⟩
        · simp only [Spec.step, Spec.replace, if_pos hs]
          simp only [abs, m3, m2]
          have : (if r.plev ≥ 0 then { T with plev := a.plev } else T).live = T.live := by
            split <;> rfl
          rw [this]
        · simp only [Spec.step, Spec.replace, if_pos hs]
          simp only [abs, p3, p2]
          by_cases hp : r.plev ≥ 0 <;> simp [hp]
      · have hs : ¬ T.abs.has r.abs := fun e => hh ((hasTags_iff T r).2 e)
        simp only [hh, Bool.not_false, if_true] at hr
        cases hr
        refine ⟨h, ?_⟩
        simp only [Spec.step, Spec.replace, if_neg hs]

theorem Reach.inv {T : TagSet} (h : Reach T) : Inv T := by
  induction h with
  | init => exact inv_default
  | step _ _ hr ih iha => exact (step_ok ih iha hr).1

/-! ## C01 -/

/-- **C01.** Any program of tag calls that returns normally leaves a tag set whose membership and
prime level are those of the set specification. -/
theorem C01_refines {T T' : TagSet} {ops : List Op} (hT : Reach T)
    (ha : ∀ op ∈ ops, ∀ a ∈ op.args, Reach a) (hr : T.run ops = .ok T') :
    T'.abs = ops.foldl Spec.step T.abs := by
  have key : ∀ (ops : List Op) (T : TagSet), Inv T → (∀ op ∈ ops, ∀ a ∈ op.args, Reach a) →
      T.run ops = .ok T' → T'.abs = ops.foldl Spec.step T.abs := by
    intro ops
    induction ops with
    | nil => intro T _ _ hr; cases hr; rfl
    | cons op ops ih =>
      intro T h ha hr
      simp only [run, Res.foldM_cons, Res.bind_eq_ok] at hr
      obtain ⟨T1, h1, h2⟩ := hr
      obtain ⟨i1, a1⟩ := step_ok h (fun a h => (ha op (by simp) a h).inv) h1
      rw [List.foldl_cons, ← a1]
      exact ih T1 i1 (fun o ho => ha o (by simp [ho])) h2
  exact key ops T hT.inv ha hr

/-- **C01.** Membership query: `hasTags` is containment. -/
theorem C01_hasTags (T ts : TagSet) : T.hasTags ts = true ↔
    (ts.plev ≥ 0 → T.plev = ts.plev) ∧ ∀ u ∈ ts.live, u ∈ T.live := hasTags_iff T ts

/-- **C01.** `size()` is the number of distinct names and is at most four. -/
theorem C01_size {T : TagSet} (h : Reach T) :
    T.live.Nodup ∧ T.live.length = T.size ∧ T.size ≤ 4 :=
  ⟨h.inv.sorted.nodup, h.inv.live_length, h.inv.size_le⟩

/-- **C01.** Exactly when adding a name fails: an integer name when the prime level is already
positive, any other name when four tags are present (even if it is one of them). It never is UB. -/
theorem C01_addTag_fails (T : TagSet) (t : Tag) :
    (T.addTag t = .throw ↔ if t.toInt ≥ 0 then T.plev > 0 else T.size = 4) ∧
      T.addTag t ≠ .ub := by
  simp only [addTag, maxTags]
  constructor
  · split
    · split <;> simp_all
    · split
      · simp_all
      · split <;> simp_all
  · repeat' split
    all_goals simp

/-- **C01.** Removal never throws, and is undefined behaviour exactly on a full set that contains
the name (slot 4 of a 4-slot array is read). -/
theorem C01_removeTag_ub {T : TagSet} (h : Reach T) (t : Tag) :
    (T.removeTag t = .ub ↔ t ∈ T.live ∧ T.size = 4) ∧ T.removeTag t ≠ .throw := by
  have hi := h.inv
  by_cases ht : t ∈ T.live
  · by_cases hs : T.size = maxTags
    · rw [removeTag_full hi ht hs]; simp [ht, hs]
    · obtain ⟨ts', h1, _⟩ := removeTag_present hi ht (by have := hi.size_le; omega)
      rw [h1]; simp [hs]
  · rw [removeTag_absent ht]; simp [ht]

/-! ## C02 -/

/-- **C02.** Tag sets compare equal exactly when they hold the same names and prime level,
whatever the histories that built them. -/
theorem C02_eq_iff {A B : TagSet} (hA : Reach A) (hB : Reach B) :
    A.eq B = true ↔ A.plev = B.plev ∧ ∀ u, u ∈ A.live ↔ u ∈ B.live := by
  have iA := hA.inv; have iB := hB.inv
  simp only [eq]
  constructor
  · intro h
    split at h
    · cases h
    · split at h
      · cases h
      · have : A.live = B.live := by simpa using h
        refine ⟨by simp_all, fun u => by rw [this]⟩
  · rintro ⟨hp, hm⟩
    have hl := Sorted.ext iA.sorted iB.sorted hm
    have hs : A.size = B.size := by rw [← iA.live_length, ← iB.live_length, hl]
    simp [hp, hs, hl]

/-- **C02.** Adding the same names in any order (and multiplicity) gives equal tag sets. -/
theorem C02_order_irrelevant {l m : List Tag} {A B : TagSet}
    (hi : ∀ t ∈ l, t.toInt < 0) (hm : ∀ t, t ∈ l ↔ t ∈ m)
    (hA : default.run (l.map .addTag) = .ok A) (hB : default.run (m.map .addTag) = .ok B) :
    A.eq B = true := by
  have reach : ∀ (l : List Tag) {T T' : TagSet}, Reach T → T.run (l.map .addTag) = .ok T' → Reach T' := by
    intro l
    induction l with
    | nil => intro T T' h hr; cases hr; exact h
    | cons t l ih =>
      intro T T' h hr
      simp only [List.map_cons, run, Res.foldM_cons, Res.bind_eq_ok] at hr
      obtain ⟨T1, h1, h2⟩ := hr
      exact ih (Reach.step h (by simp [Op.args]) h1) h2
  have fold : ∀ (l : List Tag) (s : Spec), (∀ t ∈ l, t.toInt < 0) →
      ((l.map Op.addTag).foldl Spec.step s).plev = s.plev ∧
      ∀ u, ((l.map Op.addTag).foldl Spec.step s).mem u ↔ s.mem u ∨ (u ∈ l ∧ u ≠ Tag.empty) := by
    intro l
    induction l with
    | nil => intro s _; simp
    | cons t l ih =>
      intro s hi
      have ht : ¬ t.toInt ≥ 0 := by have := hi t (by simp); omega
      obtain ⟨p, m⟩ := ih (s.step (.addTag t)) (fun u hu => hi u (by simp [hu]))
      simp only [List.map_cons, List.foldl_cons]
      refine ⟨by rw [p]; simp [Spec.step, Spec.add, ht], fun u => ?_⟩
      rw [m]
      simp only [Spec.step, Spec.add, ht, if_false, List.mem_cons]
      grind
  have rA := reach l Reach.init hA
  have rB := reach m Reach.init hB
  have eA := C01_refines Reach.init (by
    intro op hop; obtain ⟨t, _, rfl⟩ := List.mem_map.1 hop; simp [Op.args]) hA
  have eB := C01_refines Reach.init (by
    intro op hop; obtain ⟨t, _, rfl⟩ := List.mem_map.1 hop; simp [Op.args]) hB
  have fA := fold l default.abs hi
  have fB := fold m default.abs (fun t ht => hi t ((hm t).2 ht))
  rw [C02_eq_iff rA rB]
  have hpA : A.plev = default.abs.plev := by rw [← fA.1, ← eA]; rfl
  have hpB : B.plev = default.abs.plev := by rw [← fB.1, ← eB]; rfl
  refine ⟨by rw [hpA, hpB], fun u => ?_⟩
  have h1 := fA.2 u; rw [← eA] at h1
  have h2 := fB.2 u; rw [← eB] at h2
  change (u ∈ A.live ↔ _) at h1
  change (u ∈ B.live ↔ _) at h2
  rw [h1, h2, hm]

/-! ## C04 -/

/-- **C04.** `replaceTags`: mismatch of integer tags throws; otherwise a successful call does
nothing unless `rem` is contained, and else removes `rem`, adds `add`. -/
theorem C04_replaceTags {T T' rem add : TagSet} (hT : Reach T) (hr : Reach rem) (ha : Reach add)
    (h : T.replaceTags rem add = .ok T') :
    ((rem.plev ≥ 0) ↔ (add.plev ≥ 0)) ∧
    (T.hasTags rem = false → T' = T) ∧
    (T.hasTags rem = true → T'.plev = (if rem.plev ≥ 0 then add.plev else T.plev) ∧
      ∀ u, u ∈ T'.live ↔ (u ∈ T.live ∧ u ∉ rem.live) ∨ u ∈ add.live) := by
  have hst := step_ok (op := .replaceTags rem add) hT.inv (by
    intro a ha'; simp [Op.args] at ha'; rcases ha' with rfl | rfl
    · exact hr.inv
    · exact ha.inv) h
  refine ⟨?_, ?_, ?_⟩
  · simp only [replaceTags] at h
    split at h
    · cases h
    · omega
  · intro hh
    simp only [replaceTags, hh] at h
    split at h
    · cases h
    · simpa using h.symm
  · intro hh
    have hs := (hasTags_iff T rem).1 hh
    have e := hst.2
    simp only [Spec.step, Spec.replace, if_pos hs] at e
    refine ⟨congrArg Spec.plev e, fun u => ?_⟩
    have := congrFun (congrArg Spec.mem e) u
    simp only [abs] at this
    rw [this]

/-- **C04.** `setTags(b)` gives exactly the names of `b` and its prime level (0 if `b` has none). -/
theorem C04_setTags {T ts : TagSet} (hT : Reach T) (hts : Reach ts) :
    (T.setTags ts).plev = (if ts.plev < 0 then 0 else ts.plev) ∧
      ∀ u, u ∈ (T.setTags ts).live ↔ u ∈ ts.live := by
  refine ⟨rfl, fun u => ?_⟩
  rw [(setTags_ok hT.inv hts.inv).2]

/-- **C04.** `prime` and `setPrime` keep all names. -/
theorem C04_prime (T : TagSet) (n : Int) :
    (T.prime n).live = T.live ∧ (T.prime n).plev = T.plev + n ∧
      (T.setPrime n).live = T.live ∧ (T.setPrime n).plev = n := ⟨rfl, rfl, rfl, rfl⟩

/-! ## C03 -/

/-- Slots beyond `size` hold no tag. -/
def Clean (T : TagSet) : Prop := ∀ t ∈ T.tags.drop T.size, t = Tag.empty

theorem chars_ofBytes (t : Tag) : Tag.ofBytes t.chars = t := by
  simp [Tag.ofBytes, Tag.chars]

theorem toInt_empty : Tag.empty.toInt < 0 := by decide

/-- Adding back strictly sorted names to a prefix of them. -/
theorem foldAdd_sorted : ∀ (l : List Tag) (T : TagSet), Inv T → T.size + l.length ≤ maxTags →
    (∀ t ∈ l, t.toInt < 0) → (∀ t ∈ l, t ≠ Tag.empty) → (∀ t ∈ l, t ∉ T.live) → l.Nodup →
    ∃ T', Res.foldM addTag T l = .ok T' ∧ Inv T' ∧ T'.size = T.size + l.length ∧
      T'.plev = T.plev ∧ ∀ u, u ∈ T'.live ↔ u ∈ T.live ∨ u ∈ l := by
  intro l
  induction l with
  | nil => intro T h _ _ _ _ _; exact ⟨T, rfl, h, by simp, rfl, by simp⟩
  | cons t l ih =>
    intro T h hs hi he hn hd
    simp only [List.length_cons] at hs
    obtain ⟨T1, h1, i1, p1, s1, m1, _⟩ := addTag_name h (hi t (by simp)) (by omega) (hn t (by simp))
      (he t (by simp))
    have hd' := List.nodup_cons.1 hd
    obtain ⟨T2, h2, i2, s2, p2, m2⟩ := ih T1 i1 (by omega) (fun u hu => hi u (by simp [hu]))
      (fun u hu => he u (by simp [hu])) (by
        intro u hu hm
        rcases (m1 u).1 hm with e | e
        · exact hd'.1 (e ▸ hu)
        · exact hn u (by simp [hu]) e) hd'.2
    refine ⟨T2, by simp [h1, h2], i2, by simp; omega, by rw [p2, p1], fun u => ?_⟩
    rw [m2, m1]; simp only [List.mem_cons]; grind

theorem foldAdd_empties (l : List Tag) (h : ∀ t ∈ l, t = Tag.empty) (T : TagSet)
    (hs : T.size < maxTags ∨ l = []) : Res.foldM addTag T l = .ok T := by
  induction l with
  | nil => rfl
  | cons t l ih =>
    have ht := h t (by simp); subst ht
    have hs' : T.size < maxTags := by rcases hs with h | h; exact h; cases h
    have : T.addTag Tag.empty = .ok T := by
      have hi : ¬ Tag.empty.toInt ≥ 0 := by have := toInt_empty; omega
      have : ¬ T.size = maxTags := by omega
      unfold addTag
      rw [if_neg hi, if_neg this]
      simp
    simp only [Res.foldM_cons, this, Res.bind_ok]
    exact ih (fun u hu => h u (by simp [hu])) (Or.inl hs')

/-- **C03 (partial).** Binary write then read into a fresh tag set gives an equal tag set,
provided the unused slots hold no stale tag.  Full statement (for every reachable tag set) is
false, see `C03_noTags_counterexample`. -/
theorem C03_roundtrip_partial {T : TagSet} (hT : Reach T) (hc : Clean T) :
    ∃ T', default.read T.write = .ok T' ∧ T'.eq T = true := by
  have h := hT.inv
  have hmap : (T.tags.map Tag.chars).map Tag.ofBytes = T.live ++ T.tags.drop T.size := by
    rw [List.map_map]
    have : (Tag.ofBytes ∘ Tag.chars) = id := funext chars_ofBytes
    rw [this, List.map_id, live, List.take_append_drop]
  have hll := h.live_length
  obtain ⟨T1, h1, i1, s1, p1, m1⟩ := foldAdd_sorted T.live default inv_default
    (by rw [hll]; simpa [default] using h.size_le) h.noInt h.nonempty
    (by intro t _; simp [default, live]) h.sorted.nodup
  have hs1 : T1.size = T.size := by rw [s1, hll]; simp [default]
  have h2 : Res.foldM addTag T1 (T.tags.drop T.size) = .ok T1 := by
    apply foldAdd_empties _ hc
    by_cases hsz : T.size < maxTags
    · left; omega
    · right; apply List.drop_eq_nil_of_le; rw [h.len]; omega
  have hl1 : T1.live = T.live := Sorted.ext i1.sorted h.sorted (fun u => by
    rw [m1]; simp [default, live])
  refine ⟨T1.setPrime T.plev, ?_, ?_⟩
  · simp only [read, write, hmap, Res.foldM_append, h1, Res.bind_ok, h2]
  · have : (T1.setPrime T.plev).live = T.live := hl1
    simp [eq, this]
    exact ⟨rfl, hs1⟩

/-- Histories that keep the unused slots empty: adding names, removing names (from a set with a
free slot, as required for definedness), and prime-level changes. -/
theorem C03_clean_step {T T' : TagSet} (h : Inv T) (hc : Clean T) {op : Op}
    (hop : (∃ t, op = .addTag t) ∨ (∃ t, op = .removeTag t) ∨ (∃ p, op = .setPrime p) ∨
      (∃ n, op = .prime n)) (hr : T.step op = .ok T') : Clean T' := by
  rcases hop with ⟨t, rfl⟩ | ⟨t, rfl⟩ | ⟨p, rfl⟩ | ⟨n, rfl⟩
  · simp only [step] at hr
    by_cases hi : t.toInt ≥ 0
    · simp only [addTag, hi, if_true] at hr
      split at hr
      · cases hr
      · cases hr; exact hc
    · by_cases hs : T.size = maxTags
      · simp [addTag, hi, hs] at hr
      · by_cases hn : t ∈ T.live
        · have : (T.tagPosition t).isNone = false := by
            have := tagPosition_isSome.2 hn
            cases hq : T.tagPosition t <;> simp_all
          simp [addTag, hi, hs, this] at hr
          exact hr ▸ hc
        · by_cases he : t = Tag.empty
          · unfold addTag at hr
            rw [if_neg hi, if_neg hs] at hr
            simp [he] at hr
            exact hr ▸ hc
          · obtain ⟨ts', h1, _, _, _, _, h6⟩ := addTag_name h (by omega)
              (by have := h.size_le; omega) hn he
            rw [h1] at hr; cases hr
            intro u hu; rw [h6] at hu
            apply hc
            exact (List.drop_sublist_drop_left T.tags (Nat.le_succ _)).subset hu
  · simp only [step] at hr
    by_cases ht : t ∈ T.live
    · by_cases hs : T.size = maxTags
      · rw [removeTag_full h ht hs] at hr; cases hr
      · obtain ⟨ts', h1, _, _, _, _, x, r, h6, h7⟩ :=
          removeTag_present h ht (by have := h.size_le; omega)
        rw [h1] at hr; cases hr
        intro u hu; rw [h7] at hu
        apply hc; rw [h6]
        rcases List.mem_cons.1 hu with e | e
        · simp [e]
        · exact e
    · rw [removeTag_absent ht] at hr; cases hr; exact hc
  · cases hr; exact hc
  · cases hr; exact hc

/-- **C03 (partial), history form.** A tag set built from scratch by adding and removing names
and changing the prime level survives a binary write/read. -/
theorem C03_history_partial {ops : List Op} {T : TagSet}
    (hop : ∀ op ∈ ops, (∃ t, op = .addTag t) ∨ (∃ t, op = .removeTag t) ∨ (∃ p, op = .setPrime p) ∨
      (∃ n, op = .prime n)) (hr : default.run ops = .ok T) :
    ∃ T', default.read T.write = .ok T' ∧ T'.eq T = true := by
  have key : ∀ (ops : List Op) (S : TagSet), Reach S → Clean S →
      (∀ op ∈ ops, (∃ t, op = .addTag t) ∨ (∃ t, op = .removeTag t) ∨ (∃ p, op = .setPrime p) ∨
        (∃ n, op = .prime n)) → S.run ops = .ok T → Reach T ∧ Clean T := by
    intro ops
    induction ops with
    | nil => intro S h hc _ hr; cases hr; exact ⟨h, hc⟩
    | cons op ops ih =>
      intro S h hc ho hr
      simp only [run, Res.foldM_cons, Res.bind_eq_ok] at hr
      obtain ⟨T1, h1, h2⟩ := hr
      refine ih T1 (Reach.step h ?_ h1) (C03_clean_step h.inv hc (ho op (by simp)) h1)
        (fun o h => ho o (by simp [h])) h2
      rcases ho op (by simp) with ⟨t, rfl⟩ | ⟨t, rfl⟩ | ⟨p, rfl⟩ | ⟨n, rfl⟩ <;> simp [Op.args]
  obtain ⟨r, c⟩ := key ops default Reach.init (by
    intro t ht; simp [default] at ht; exact ht) hop hr
  exact C03_roundtrip_partial r c

/-- **C03 is false of the code.** `TagSet("a")`, then `noTags()`, written and read back, has the
tag "a" again: `noTags` only resets the size, `write` dumps all four slots. -/
theorem C03_noTags_counterexample :
    ∃ T T', Reach T ∧ T.live = [] ∧ default.read T.write = .ok T' ∧
      T'.live = [Tag.ofBytes [97]] ∧ T'.eq T = false := by
  refine ⟨⟨[Tag.ofBytes [97], .empty, .empty, .empty], 0, 0⟩,
    ⟨[Tag.ofBytes [97], .empty, .empty, .empty], 0, 1⟩, ?_, by decide, by decide, by decide,
    by decide⟩
  refine Reach.step (T := ⟨[Tag.ofBytes [97], .empty, .empty, .empty], -1, 1⟩) (op := .noTags)
    (Reach.step (op := .addTag (Tag.ofBytes [97])) Reach.init (by simp [Op.args]) (by decide))
    (by simp [Op.args]) (by decide)

/-- A name that survives being printed: no comma or space, NULs only at the end. -/
def PlainName (t : Tag) : Prop :=
  Tag.ofBytes (nameChars t) = t ∧ ∀ c ∈ nameChars t, c ≠ 44 ∧ c ≠ 32

theorem parseAux_name (w : List UInt8) (hw : ∀ c ∈ w, c ≠ 44 ∧ c ≠ 32) :
    ∀ (ts : TagSet) (cur rest : List UInt8), cur.length + w.length ≤ 7 →
      parseAux ts cur (w ++ rest) = parseAux ts (cur ++ w) rest := by
  induction w with
  | nil => intro ts cur rest _; simp
  | cons c w ih =>
    intro ts cur rest hl
    have hc := hw c (by simp)
    simp only [List.length_cons] at hl
    have : ¬ cur.length ≥ 7 := by omega
    simp only [List.cons_append, parseAux, hc.1, hc.2, if_false, this]
    rw [ih (fun d hd => hw d (by simp [hd])) ts (cur ++ [c]) rest (by simp; omega)]
    simp

theorem nameChars_length (t : Tag) : (nameChars t).length ≤ 7 := by
  have : (nameChars t).length ≤ t.chars.length := (List.takeWhile_sublist _).length_le
  simpa [Tag.chars] using this

theorem parse_tagString (l : List Tag) : ∀ (t : Tag) (ts : TagSet), (∀ u ∈ t :: l, PlainName u) →
    parseAux ts [] (nameChars t ++ l.flatMap fun u => 44 :: nameChars u) =
      Res.foldM addTag ts (t :: l) := by
  induction l with
  | nil =>
    intro t ts h
    have ht := h t (by simp)
    rw [parseAux_name _ ht.2 _ _ _ (by simpa using nameChars_length t)]
    simp [parseAux, ht.1]
    cases ts.addTag t <;> simp
  | cons u l ih =>
    intro t ts h
    have ht := h t (by simp)
    rw [parseAux_name _ ht.2 _ _ _ (by simpa using nameChars_length t)]
    simp only [List.flatMap_cons, List.cons_append, parseAux, if_true, List.nil_append, ht.1]
    rw [Res.foldM_cons]
    cases ts.addTag t with
    | ok a => simp only [Res.bind_ok]; exact ih u a (fun v hv => h v (by simp [hv]))
    | throw => rfl
    | ub => rfl

/-- **C03, HDF5/string form.** Writing the tag string and prime level and parsing them back gives
an equal tag set (stale slots do not matter here), for names without commas and spaces. -/
theorem C03_h5_roundtrip {T : TagSet} (hT : Reach T) (hn : ∀ t ∈ T.live, PlainName t) :
    ∃ T', h5read T.h5write = .ok T' ∧ T'.eq T = true := by
  have h := hT.inv
  have hll := h.live_length
  obtain ⟨T1, h1, i1, s1, p1, m1⟩ := foldAdd_sorted T.live default inv_default
    (by rw [hll]; simpa [default] using h.size_le) h.noInt h.nonempty
    (by intro t _; simp [default, live]) h.sorted.nodup
  have hs1 : T1.size = T.size := by rw [s1, hll]; simp [default]
  have hl1 : T1.live = T.live := Sorted.ext i1.sorted h.sorted (fun u => by
    rw [m1]; simp [default, live])
  have hp : parse T.tagString = .ok T1 := by
    unfold parse tagString
    cases hlv : T.live with
    | nil =>
      rw [hlv] at h1
      simp only [Res.foldM_nil, Res.ok.injEq] at h1
      subst h1; decide
    | cons t l =>
      simp only
      rw [parse_tagString l t default (by rw [← hlv]; exact hn), ← hlv, h1]
  refine ⟨T1.setPrime T.plev, ?_, ?_⟩
  · simp only [h5read, h5write, hp, Res.bind_ok]
  · have : (T1.setPrime T.plev).live = T.live := hl1
    simp [eq, this]
    exact ⟨rfl, hs1⟩

example : PlainName (Tag.ofBytes [83, 105, 116, 101]) := by
  refine ⟨by decide, by decide⟩

/-! ## Hypotheses are met by concrete states -/

/-- "a,b" with prime level 2, then replace a by c. -/
example : ∃ T T' : TagSet, Reach T ∧ T.size = 2 ∧
    T.replaceTags ⟨[Tag.ofBytes [97], .empty, .empty, .empty], -1, 1⟩
      ⟨[Tag.ofBytes [99], .empty, .empty, .empty], -1, 1⟩ = .ok T' ∧
    T'.live = [Tag.ofBytes [98], Tag.ofBytes [99]] := by
  refine ⟨⟨[Tag.ofBytes [97], Tag.ofBytes [98], .empty, .empty], 2, 2⟩, _, ?_, rfl, rfl, by decide⟩
  refine Reach.step (op := .setPrime 2) (Reach.step (op := .addTag (Tag.ofBytes [97]))
    (Reach.step (op := .addTag (Tag.ofBytes [98])) Reach.init (by simp [Op.args]) rfl)
    (by simp [Op.args]) rfl) (by simp [Op.args]) (by decide)

/-- Two orders of adding "b","a","b" / "a","b". -/
example : ∃ A B : TagSet,
    default.run ([Tag.ofBytes [98], Tag.ofBytes [97], Tag.ofBytes [98]].map .addTag) = .ok A ∧
    default.run ([Tag.ofBytes [97], Tag.ofBytes [98]].map .addTag) = .ok B ∧ A.size = 2 :=
  ⟨_, _, rfl, rfl, by decide⟩

/-- A full tag set exists, so the undefined removal is reachable. -/
example : ∃ T : TagSet, Reach T ∧ T.size = 4 ∧ Tag.ofBytes [97] ∈ T.live ∧
    T.removeTag (Tag.ofBytes [97]) = .ub := by
  refine ⟨⟨[Tag.ofBytes [97], Tag.ofBytes [98], Tag.ofBytes [99], Tag.ofBytes [100]], -1, 4⟩,
    ?_, rfl, by decide, by decide⟩
  refine Reach.step (op := .addTag (Tag.ofBytes [97])) (Reach.step (op := .addTag (Tag.ofBytes [98]))
    (Reach.step (op := .addTag (Tag.ofBytes [99])) (Reach.step (op := .addTag (Tag.ofBytes [100]))
      Reach.init (by simp [Op.args]) rfl) (by simp [Op.args]) rfl) (by simp [Op.args]) rfl)
    (by simp [Op.args]) (by decide)

end TagSet
end Verif.TagSet
