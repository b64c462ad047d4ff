import Verif.TagSet.Model

namespace Verif.TagSet

theorem Tag.key_inj {a b : Tag} (h : a.key = b.key) : a = b := by
  obtain ⟨a0, a1, a2, a3, a4, a5, a6⟩ := a
  obtain ⟨b0, b1, b2, b3, b4, b5, b6⟩ := b
  simp only [Tag.key] at h
  have h0 := a0.toNat_lt; have h1 := a1.toNat_lt; have h2 := a2.toNat_lt
  have h3 := a3.toNat_lt; have h4 := a4.toNat_lt; have h5 := a5.toNat_lt; have h6 := a6.toNat_lt
  have g0 := b0.toNat_lt; have g1 := b1.toNat_lt; have g2 := b2.toNat_lt
  have g3 := b3.toNat_lt; have g4 := b4.toNat_lt; have g5 := b5.toNat_lt; have g6 := b6.toNat_lt
  simp only [Tag.mk.injEq, ← UInt8.toNat_inj]
  omega

namespace TagSet

/-- Strictly increasing in the 64-bit key. -/
def Sorted (l : List Tag) : Prop := l.Pairwise fun a b => a.key < b.key

theorem Sorted.nodup {l : List Tag} (h : Sorted l) : l.Nodup := by
  refine List.Pairwise.imp ?_ h
  intro a b hab e; subst e; omega

/-- Strictly sorted lists with the same members are equal. -/
theorem Sorted.ext {l m : List Tag} (hl : Sorted l) (hm : Sorted m)
    (h : ∀ t, t ∈ l ↔ t ∈ m) : l = m := by
  induction l generalizing m with
  | nil =>
    cases m with
    | nil => rfl
    | cons b m => exact absurd ((h b).2 (by simp)) (by simp)
  | cons a l ih =>
    cases m with
    | nil => exact absurd ((h a).1 (by simp)) (by simp)
    | cons b m =>
      have hl' := List.pairwise_cons.1 hl
      have hm' := List.pairwise_cons.1 hm
      have hab : a = b := by
        apply Tag.key_inj
        have h1 := (h a).1 (by simp)
        have h2 := (h b).2 (by simp)
        rcases List.mem_cons.1 h1 with h1 | h1
        · rw [h1]
        · rcases List.mem_cons.1 h2 with h2 | h2
          · rw [h2]
          · have := hl'.1 b h2; have := hm'.1 a h1; omega
      subst hab
      congr 1
      apply ih hl'.2 hm'.2
      intro t
      constructor
      · intro ht
        rcases List.mem_cons.1 ((h t).1 (List.mem_cons_of_mem _ ht)) with e | e
        · subst e; have := hl'.1 t ht; omega
        · exact e
      · intro ht
        rcases List.mem_cons.1 ((h t).2 (List.mem_cons_of_mem _ ht)) with e | e
        · subst e; have := hm'.1 t ht; omega
        · exact e

theorem addLoop_spec (t : Tag) (l : List Tag) : ∀ (x : Tag) (r : List Tag), Sorted l →
    addLoop t l.length (l ++ x :: r) =
      l.filter (·.lt t) ++ t :: l.filter (fun y => !(y.lt t)) ++ r := by
  generalize hn : l.length = n
  induction n generalizing l with
  | zero =>
    intro x r _
    have : l = [] := List.length_eq_zero_iff.1 hn
    subst this; simp [addLoop]
  | succ n ih =>
    intro x r hs
    obtain ⟨l', y, rfl⟩ : ∃ l' y, l = l' ++ [y] := by
      refine ⟨l.dropLast, l.getLast (by intro e; subst e; simp at hn), ?_⟩
      exact (List.dropLast_concat_getLast _).symm
    have hl' : l'.length = n := by simpa using hn
    have hs' := List.pairwise_append.1 hs
    simp only [addLoop]
    have hg : ((l' ++ [y]) ++ x :: r).getD n Tag.empty = y := by
      simp [List.getD, hl'.symm]
    rw [hg]
    by_cases hy : y.lt t
    · have hall : ∀ z ∈ l', z.lt t = true := by
        intro z hz
        have := hs'.2.2 z hz y (by simp)
        simp only [Tag.lt, decide_eq_true_eq] at hy ⊢; omega
      have e1 : l'.filter (·.lt t) = l' := List.filter_eq_self.2 hall
      have e2 : l'.filter (fun y => !(y.lt t)) = [] := by
        apply List.filter_eq_nil_iff.2; intro z hz; simp [hall z hz]
      simp only [hy, if_true, List.filter_append, e1, e2]
      have : n + 1 = (l' ++ [y]).length := by simp [hl']
      rw [this, List.set_append_right _ _ (Nat.le_refl _)]
      simp [hy]
    · have hset : ((l' ++ [y]) ++ x :: r).set (n + 1) y = l' ++ y :: (y :: r) := by
        have : n + 1 = (l' ++ [y]).length := by simp [hl']
        rw [this, List.set_append_right _ _ (Nat.le_refl _)]
        simp
      simp only [hy, hset]
      have := ih l' hl' y (y :: r) hs'.1
      simp only [Bool.false_eq_true, if_false, this, List.filter_append]
      simp [hy]

/-- Well-formed tag sets: what every API history maintains (`Reach.inv`). -/
structure Inv (ts : TagSet) : Prop where
  len : ts.tags.length = maxTags
  size_le : ts.size ≤ maxTags
  sorted : Sorted ts.live
  nonempty : ∀ t ∈ ts.live, t ≠ Tag.empty
  noInt : ∀ t ∈ ts.live, t.toInt < 0

theorem Inv.live_length {ts : TagSet} (h : Inv ts) : ts.live.length = ts.size := by
  have := h.size_le; have := h.len
  simp only [live, List.length_take]; omega

theorem inv_default : Inv default := by
  refine ⟨rfl, by decide, ?_, ?_, ?_⟩ <;> simp [live, default, Sorted]

theorem tagPosition_isSome {ts : TagSet} {t : Tag} :
    (ts.tagPosition t).isSome = true ↔ t ∈ ts.live := by
  simp [tagPosition, List.findIdx?_isSome]

theorem tagPosition_isNone {ts : TagSet} {t : Tag} :
    (ts.tagPosition t).isNone = true ↔ t ∉ ts.live := by
  rw [← tagPosition_isSome]; cases ts.tagPosition t <;> simp

theorem split_slots {ts : TagSet} (h : Inv ts) (hs : ts.size < maxTags) :
    ∃ x r, ts.tags = ts.live ++ x :: r := by
  have hl := h.len
  have : ts.tags.drop ts.size ≠ [] := by
    intro e; have := congrArg List.length e; simp at this; omega
  obtain ⟨x, r, hx⟩ := List.exists_cons_of_ne_nil this
  exact ⟨x, r, by rw [← hx, live, List.take_append_drop]⟩

/-- Complete description of `addTag` on a well-formed tag set. -/
theorem addTag_name {ts : TagSet} (h : Inv ts) {t : Tag} (hi : t.toInt < 0)
    (hs : ts.size < maxTags) (hn : t ∉ ts.live) (he : t ≠ Tag.empty) :
    ∃ ts', ts.addTag t = .ok ts' ∧ Inv ts' ∧ ts'.plev = ts.plev ∧ ts'.size = ts.size + 1 ∧
      (∀ u, u ∈ ts'.live ↔ u = t ∨ u ∈ ts.live) ∧
      ts'.tags.drop ts'.size = ts.tags.drop (ts.size + 1) := by
  obtain ⟨x, r, hx⟩ := split_slots h hs
  have hlen := h.live_length
  have hloop := addLoop_spec t ts.live x r h.sorted
  rw [hlen, ← hx] at hloop
  have hint : ¬ t.toInt ≥ 0 := by omega
  have hsz : ¬ ts.size = maxTags := by omega
  have hcond : ((ts.tagPosition t).isNone && t != Tag.empty) = true := by
    simp [tagPosition_isNone.2 hn, he]
  have hfl : (ts.live.filter (·.lt t) ++ t :: ts.live.filter (fun y => !(y.lt t))).length
      = ts.size + 1 := by
    have h1 : (ts.live.filter (·.lt t)).length + (ts.live.filter (fun y => !(y.lt t))).length
        = ts.live.length := by
      have := (List.filter_append_perm (·.lt t) ts.live).length_eq
      simpa using this
    simp only [List.length_append, List.length_cons]; omega
  refine ⟨{ ts with tags := addLoop t ts.size ts.tags, size := ts.size + 1 }, ?_, ?_, rfl, rfl,
    ?_, ?_⟩
  · simp only [addTag, hint, hsz, hcond, if_true, if_false]
  · have hlive : (⟨addLoop t ts.size ts.tags, ts.plev, ts.size + 1⟩ : TagSet).live =
        ts.live.filter (·.lt t) ++ t :: ts.live.filter (fun y => !(y.lt t)) := by
      simp only [live] at hloop ⊢
      rw [hloop, ← hfl, ]
      simp only [live]
      rw [List.take_append_of_le_length (Nat.le_refl _), List.take_length]
    constructor
    · have hl := h.len
      have hr : r.length = maxTags - (ts.size + 1) := by
        have := congrArg List.length hx; simp [hlen] at this; omega
      simp only [hloop, List.length_append] 
      simp only [List.length_append] at hfl
      omega
    · simp; omega
    · rw [hlive]
      refine List.pairwise_append.2 ⟨h.sorted.sublist List.filter_sublist, ?_, ?_⟩
      · refine List.pairwise_cons.2 ⟨?_, h.sorted.sublist List.filter_sublist⟩
        intro y hy
        have hy' := List.mem_filter.1 hy
        have hne : y.key ≠ t.key := fun e => hn (Tag.key_inj e ▸ hy'.1)
        have := hy'.2
        simp only [Tag.lt, Bool.not_eq_true', decide_eq_false_iff_not] at this
        omega
      · intro a ha b hb
        have ha' := (List.mem_filter.1 ha).2
        simp only [Tag.lt, decide_eq_true_eq] at ha'
        rcases List.mem_cons.1 hb with e | hb
        · subst e; exact ha'
        · have hb' := (List.mem_filter.1 hb).2
          simp only [Tag.lt, Bool.not_eq_true', decide_eq_false_iff_not] at hb'
          omega
    · rw [hlive]; intro u hu
      simp only [List.mem_append, List.mem_filter, List.mem_cons] at hu
      rcases hu with hu | hu | hu
      · exact h.nonempty u hu.1
      · exact hu ▸ he
      · exact h.nonempty u hu.1
    · rw [hlive]; intro u hu
      simp only [List.mem_append, List.mem_filter, List.mem_cons] at hu
      rcases hu with hu | hu | hu
      · exact h.noInt u hu.1
      · exact hu ▸ hi
      · exact h.noInt u hu.1
  · intro u
    have hlive : (⟨addLoop t ts.size ts.tags, ts.plev, ts.size + 1⟩ : TagSet).live =
        ts.live.filter (·.lt t) ++ t :: ts.live.filter (fun y => !(y.lt t)) := by
      simp only [live] at hloop ⊢
      rw [hloop, ← hfl]
      simp only [live]
      rw [List.take_append_of_le_length (Nat.le_refl _), List.take_length]
    rw [hlive]
    simp only [List.mem_append, List.mem_filter, List.mem_cons]
    by_cases hu : u.lt t <;> simp [hu] 
    · constructor
      · rintro (h | h) <;> simp [h]
      · rintro (h | h) <;> simp [h]
  · simp only [hloop]
    have : ts.tags.drop (ts.size + 1) = r := by
      rw [hx, ← hlen]
      simp [List.drop_append]
    rw [this, ← hfl, List.drop_left]

theorem removeLoop_ub {a : List Tag} {n i : Nat} (h : a.length ≤ i + n) (hn : 0 < n) :
    removeLoop n i a = .ub := by
  induction n generalizing i a with
  | zero => omega
  | succ n ih =>
    simp only [removeLoop]
    cases hx : a[i + 1]? with
    | none => rfl
    | some x =>
      have : i + 1 < a.length := by
        have := List.getElem?_eq_some_iff.1 hx; exact this.1
      exact ih (by simp; omega) (by omega)

/-- The removal loop on a list with room: slots `loc+1 ..= loc+n` move down by one. -/
theorem removeLoop_spec (pre : List Tag) (x : Tag) (mid : List Tag) (post : List Tag) :
    removeLoop mid.length pre.length (pre ++ x :: mid ++ post) =
      .ok (pre ++ mid ++ (x :: mid).getLast (by simp) :: post) := by
  induction mid generalizing pre x with
  | nil => simp [removeLoop]
  | cons y mid ih =>
    simp only [List.length_cons, removeLoop]
    have hg : (pre ++ x :: y :: mid ++ post)[pre.length + 1]? = some y := by
      simp [List.getElem?_append]
    rw [hg]
    have hset : (pre ++ x :: y :: mid ++ post).set pre.length y = (pre ++ [y]) ++ y :: mid ++ post := by
      simp [List.set_append]
    simp only [hset]
    have := ih (pre ++ [y]) y
    simp only [List.length_append, List.length_cons, List.length_nil] at this
    rw [this]
    simp

theorem findIdx?_mem_split {l : List Tag} {t : Tag} {i : Nat}
    (h : l.findIdx? (· == t) = some i) :
    ∃ pre post, l = pre ++ t :: post ∧ pre.length = i ∧ t ∉ pre := by
  induction l generalizing i with
  | nil => simp at h
  | cons a l ih =>
    simp only [List.findIdx?_cons] at h
    by_cases ha : a = t
    · subst ha; simp at h; exact ⟨[], l, by simp, by simp [← h], by simp⟩
    · have : (a == t) = false := by simpa using ha
      rw [this] at h
      simp only [Bool.false_eq_true, if_false, Option.map_eq_some_iff] at h
      obtain ⟨j, hj, rfl⟩ := h
      obtain ⟨pre, post, rfl, hp, hn⟩ := ih hj
      exact ⟨a :: pre, post, by simp, by simp [hp], by simp [hn, Ne.symm ha]⟩

/-- Removal of a tag that is not there changes nothing. -/
theorem removeTag_absent {ts : TagSet} {t : Tag} (hn : t ∉ ts.live) :
    ts.removeTag t = .ok ts := by
  have : ts.tagPosition t = none := by
    have := tagPosition_isNone.2 hn; simpa using this
  simp [removeTag, this]

/-- Removal of a present tag from a full set reads slot `MAX_TAGS`: undefined behaviour. -/
theorem removeTag_full {ts : TagSet} (h : Inv ts) {t : Tag} (ht : t ∈ ts.live)
    (hs : ts.size = maxTags) : ts.removeTag t = .ub := by
  have := tagPosition_isSome.2 ht
  obtain ⟨i, hi⟩ := Option.isSome_iff_exists.1 this
  obtain ⟨pre, post, hp, hpl, _⟩ := findIdx?_mem_split hi
  have hlen := h.live_length
  have hl := h.len
  have hil : i < ts.size := by rw [← hlen, hp]; simp; omega
  simp only [removeTag, hi]
  rw [removeLoop_ub (by omega) (by omega)]; rfl

/-- Removal of a present tag when a free slot exists. -/
theorem removeTag_present {ts : TagSet} (h : Inv ts) {t : Tag} (ht : t ∈ ts.live)
    (hs : ts.size < maxTags) :
    ∃ ts', ts.removeTag t = .ok ts' ∧ Inv ts' ∧ ts'.plev = ts.plev ∧ ts'.size = ts.size - 1 ∧
      (∀ u, u ∈ ts'.live ↔ u ∈ ts.live ∧ u ≠ t) ∧
      (∃ x r, ts.tags.drop ts.size = x :: r ∧ ts'.tags.drop ts'.size = x :: x :: r) := by
  have hsome := tagPosition_isSome.2 ht
  obtain ⟨i, hi⟩ := Option.isSome_iff_exists.1 hsome
  obtain ⟨pre, post, hp, hpl, hnp⟩ := findIdx?_mem_split hi
  have hlen := h.live_length
  have hl := h.len
  obtain ⟨x, r, hx⟩ := split_slots h hs
  have hsz : ts.size = pre.length + 1 + post.length := by
    rw [← hlen, hp]; simp; omega
  have hloop := removeLoop_spec pre t (post ++ [x]) r
  have e1 : ts.tags = pre ++ t :: (post ++ [x]) ++ r := by
    rw [hx, hp]; simp
  have e2 : ts.size - i = (post ++ [x]).length := by simp; omega
  rw [← e1, ← e2, hpl] at hloop
  have e3 : (t :: (post ++ [x])).getLast (by simp) = x := by
    simp [List.getLast_cons, List.getLast_append]
  rw [e3] at hloop
  have hlive' : (⟨pre ++ (post ++ [x]) ++ x :: r, ts.plev, ts.size - 1⟩ : TagSet).live
      = pre ++ post := by
    simp only [live]
    have : ts.size - 1 = (pre ++ post).length := by simp; omega
    rw [this]
    have : pre ++ (post ++ [x]) ++ x :: r = (pre ++ post) ++ ([x] ++ x :: r) := by simp
    rw [this, List.take_left]
  have hnodup := h.sorted.nodup
  rw [hp] at hnodup
  have hnpost : t ∉ post := by
    have := (List.nodup_append.1 hnodup).2.1
    exact (List.nodup_cons.1 this).1
  have hdrop : ts.tags.drop ts.size = x :: r := by
    rw [hx, ← hlen, List.drop_left]
  refine ⟨⟨pre ++ (post ++ [x]) ++ x :: r, ts.plev, ts.size - 1⟩, ?_, ?_, rfl, rfl, ?_, ?_⟩
  · simp only [removeTag, hi, hloop, Res.bind_ok]
  · constructor
    · have := congrArg List.length e1
      simp only [List.length_append, List.length_cons, List.length_nil] at this ⊢
      omega
    · simp; omega
    · rw [hlive']
      have := h.sorted; rw [hp] at this
      refine List.Pairwise.sublist ?_ this
      exact List.Sublist.append (List.Sublist.refl _) (List.sublist_cons_self _ _)
    · rw [hlive']; intro u hu; apply h.nonempty; rw [hp]
      simp only [List.mem_append, List.mem_cons] at hu ⊢
      rcases hu with h | h <;> simp [h]
    · rw [hlive']; intro u hu; apply h.noInt; rw [hp]
      simp only [List.mem_append, List.mem_cons] at hu ⊢
      rcases hu with h | h <;> simp [h]
  · intro u
    rw [hlive', hp]
    simp only [List.mem_append, List.mem_cons]
    constructor
    · rintro (hu | hu)
      · exact ⟨Or.inl hu, fun e => hnp (e ▸ hu)⟩
      · exact ⟨Or.inr (Or.inr hu), fun e => hnpost (e ▸ hu)⟩
    · rintro ⟨hu | hu | hu, hne⟩
      · exact Or.inl hu
      · exact absurd hu hne
      · exact Or.inr hu
  · refine ⟨x, r, hdrop, ?_⟩
    have : ts.size - 1 = (pre ++ post).length := by simp; omega
    simp only [this]
    have : pre ++ (post ++ [x]) ++ x :: r = (pre ++ post) ++ ([x] ++ x :: r) := by simp
    rw [this, List.drop_left]; rfl

end TagSet
end Verif.TagSet
