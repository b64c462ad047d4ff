import Verif.Index.Props

/-!
# Property C05: `swapTags` with prime levels

`/repo/itensor/indexset_impl.h:21-49`, called in the library as `swapTags("0","1")` (localop.h:402).
-/

namespace Verif.Index.IndexSet

open Verif.TagSet (Tag TagSet)

/-- **C05.** `swapTags(a,b)` for tag sets with prime levels, without a match argument: an index with the prime level and all names of
`a` gets the prime level of `b` and its names in place of those of `a`; one with those of `b` gets those of `a`; all others are
unchanged. It is needed that no index has both, which is so if the prime levels differ, and that the temporary tag and the temporary
prime level are not in use. -/
theorem C05_swapTags_primes_partial (a b : TagSet) (is js : IndexSet) (ha : TagSet.Reach a) (hb : TagSet.Reach b)
    (his : ∀ j ∈ is, TagSet.Reach j.tags) (hap : 0 ≤ a.plev) (hbt : b.plev ≠ 431543)
    (hboth : ∀ j ∈ is, ¬((j.plev = a.plev ∧ ∀ u ∈ a.live, u ∈ j.tags.live) ∧ j.plev = b.plev ∧ ∀ u ∈ b.live, u ∈ j.tags.live))
    (ht : ∀ j ∈ is, tempTag ∉ j.tags.live) (hta : tempTag ∉ a.live)
    (h : swapTags a b is .all = .ok js) :
    0 ≤ b.plev ∧ js.length = is.length ∧ ∀ k (hk : k < is.length), ∃ j, js[k]? = some j ∧
      j = { is[k] with tags := j.tags } ∧
      ((is[k].plev = a.plev ∧ ∀ u ∈ a.live, u ∈ is[k].tags.live) →
        j.plev = b.plev ∧ ∀ u, u ∈ j.tags.live ↔ (u ∈ is[k].tags.live ∧ u ∉ a.live) ∨ u ∈ b.live) ∧
      ((is[k].plev = b.plev ∧ ∀ u ∈ b.live, u ∈ is[k].tags.live) →
        j.plev = a.plev ∧ ∀ u, u ∈ j.tags.live ↔ (u ∈ is[k].tags.live ∧ u ∉ b.live) ∨ u ∈ a.live) ∧
      (¬(is[k].plev = a.plev ∧ ∀ u ∈ a.live, u ∈ is[k].tags.live) → ¬(is[k].plev = b.plev ∧ ∀ u ∈ b.live, u ∈ is[k].tags.live) →
        j = is[k]) := by
  obtain ⟨hpp, hl, hall⟩ := swapTags_unfold ha hb his h
  refine ⟨by omega, hl, fun k hk => ?_⟩
  obtain ⟨j, T1, T2, ej, js0, r1, r2, r3, f1, f2, f3⟩ := hall k hk
  have hTt := ht _ (List.getElem_mem hk)
  have hTr := his _ (List.getElem_mem hk)
  have hbo := hboth _ (List.getElem_mem hk)
  have hap' : a.plev ≥ 0 := hap
  have hbp' : b.plev ≥ 0 := hpp.1 hap
  have hdec : decide (a.plev ≥ 0) = true := by simp; omega
  rw [hdec] at f1 f3
  have rt := reach_temp true
  refine ⟨j, ej, js0, ?_⟩
  suffices hs : ((is[k].plev = a.plev ∧ ∀ u ∈ a.live, u ∈ is[k].tags.live) →
        j.tags.plev = b.plev ∧ ∀ u, u ∈ j.tags.live ↔ (u ∈ is[k].tags.live ∧ u ∉ a.live) ∨ u ∈ b.live) ∧
      ((is[k].plev = b.plev ∧ ∀ u ∈ b.live, u ∈ is[k].tags.live) →
        j.tags.plev = a.plev ∧ ∀ u, u ∈ j.tags.live ↔ (u ∈ is[k].tags.live ∧ u ∉ b.live) ∨ u ∈ a.live) ∧
      (¬(is[k].plev = a.plev ∧ ∀ u ∈ a.live, u ∈ is[k].tags.live) → ¬(is[k].plev = b.plev ∧ ∀ u ∈ b.live, u ∈ is[k].tags.live) →
        j.tags = is[k].tags) by
    exact ⟨hs.1, hs.2.1, fun x y => by rw [js0, hs.2.2 x y]⟩
  unfold Index.plev at *
  clear js0
  generalize is[k] = I at *
  generalize j.tags = T3 at *
  obtain ⟨_, n1, p1⟩ := TagSet.C04_replaceTags hTr ha rt f1
  obtain ⟨_, n2, p2⟩ := TagSet.C04_replaceTags r1 hb ha f2
  obtain ⟨_, n3, p3⟩ := TagSet.C04_replaceTags r2 rt hb f3
  have tlive : (tempTags true).live = [tempTag] := by simp [tempTags, TagSet.live]
  have tplev : (tempTags true).plev = 431543 := by simp [tempTags]
  have hasA : ∀ T : TagSet, T.hasTags a = true ↔ T.plev = a.plev ∧ ∀ u ∈ a.live, u ∈ T.live := by
    intro T; rw [TagSet.C01_hasTags]; simp [hap', and_comm]
  have hasB : ∀ T : TagSet, T.hasTags b = true ↔ T.plev = b.plev ∧ ∀ u ∈ b.live, u ∈ T.live := by
    intro T; rw [TagSet.C01_hasTags]; simp [hbp', and_comm]
  have hasT : ∀ T : TagSet, T.hasTags (tempTags true) = true ↔ T.plev = 431543 ∧ tempTag ∈ T.live := by
    intro T; rw [TagSet.C01_hasTags, tlive]; simp [tplev, and_comm]
  have bf : ∀ {x : Bool}, ¬ x = true → x = false := fun h => Bool.eq_false_iff.2 h
  simp only [hap', hbp', tplev, if_true, tlive, List.mem_singleton, ge_iff_le,
    show (0 : Int) ≤ 431543 by omega] at p1 p2 p3
  rw [← hasA, ← hasB] at hbo ⊢
  by_cases hA : I.tags.hasTags a = true
  · obtain ⟨q1, q2⟩ := p1 hA
    have e2 := n2 (bf (by rw [hasB, q1]; exact fun hc => hbt hc.1.symm))
    subst e2
    obtain ⟨t1, t2⟩ := p3 (by rw [hasT]; exact ⟨q1, (q2 _).2 (.inr rfl)⟩)
    refine ⟨fun _ => ⟨t1, fun u => ?_⟩, fun hB => absurd ⟨hA, hB⟩ hbo, fun hc => absurd hA hc⟩
    rw [t2, q2]
    constructor
    · rintro (⟨h | h, h'⟩ | h)
      · exact .inl h
      · exact absurd h h'
      · exact .inr h
    · rintro (h | h)
      · exact .inl ⟨.inl h, fun e => hTt (by rw [← e]; exact h.1)⟩
      · exact .inr h
  · have e1 := n1 (bf hA)
    subst e1
    by_cases hB : I.tags.hasTags b = true
    · obtain ⟨s1, s2⟩ := p2 hB
      have e3 := n3 (bf (by
        rw [hasT, s2]
        rintro ⟨_, h | h⟩
        · exact hTt h.1
        · exact hta h))
      subst e3
      exact ⟨fun h => absurd h hA, fun _ => ⟨s1, s2⟩, fun _ h => absurd hB h⟩
    · have e2 := n2 (bf hB)
      subst e2
      have e3 := n3 (bf (by rw [hasT]; exact fun h => hTt h.2))
      subst e3
      exact ⟨fun h => absurd h hA, fun h => absurd h hB, fun _ _ => rfl⟩

/-- An index with the tag `a` and its primed copy exchange their prime levels, and one with prime level 2 keeps it. -/
example :
    let T (p : Int) : TagSet := ⟨[Tag.ofBytes [97], Tag.empty, Tag.empty, Tag.empty], p, 1⟩
    let P (p : Int) : TagSet := ⟨List.replicate 4 Tag.empty, p, 0⟩
    swapTags (P 0) (P 1) [⟨7, 2, 1, T 0, []⟩, ⟨7, 2, 1, T 1, []⟩, ⟨7, 2, 1, T 2, []⟩] .all =
      .ok [⟨7, 2, 1, T 1, []⟩, ⟨7, 2, 1, T 0, []⟩, ⟨7, 2, 1, T 2, []⟩] := by decide

/-- **C05 fails for `swapTags` with equal prime levels.** `swapTags("a,0","b,0")` on an index with the tags `a` and `b` and prime level 0
loses the tag `a`; without prime levels, `swapTags("a","b")` leaves such an index as it is. -/
theorem C05_swapTags_equal_counterexample :
    let A (p : Int) : TagSet := ⟨[Tag.ofBytes [97], Tag.empty, Tag.empty, Tag.empty], p, 1⟩
    let B (p : Int) : TagSet := ⟨[Tag.ofBytes [98], Tag.empty, Tag.empty, Tag.empty], p, 1⟩
    ∃ I J : Index, I.tags.live = [Tag.ofBytes [97], Tag.ofBytes [98]] ∧ I.plev = 0 ∧
      swapTags (A 0) (B 0) [I] .all = .ok [J] ∧ J.tags.live = [Tag.ofBytes [98]] ∧
      swapTags (A (-1)) (B (-1)) [I] .all = .ok [I] :=
  ⟨⟨7, 2, 1, ⟨[Tag.ofBytes [97], Tag.ofBytes [98], Tag.empty, Tag.empty], 0, 2⟩, []⟩,
    ⟨7, 2, 1, ⟨[Tag.ofBytes [98], Tag.empty, Tag.empty, Tag.empty], 0, 1⟩, []⟩,
    by decide, by decide, by decide, by decide, by decide⟩

/-- **C05 fails for `swapTags` on an index with four tags.** `swapTags("0","1")` has to change only prime levels, but it throws for every
index with four tags and prime level 0, because the temporary tag does not fit. -/
theorem C05_swapTags_full_counterexample (I : Index) (h4 : I.tags.size = 4) (h0 : I.plev = 0)
    (is : IndexSet) (p : Int) (hp : 0 ≤ p) :
    swapTags ⟨List.replicate 4 Tag.empty, 0, 0⟩ ⟨List.replicate 4 Tag.empty, p, 0⟩ (I :: is) .all = .throw := by
  have hz : tempTag.toInt < 0 := by decide
  have hp0 : I.tags.plev = 0 := h0
  have h1 : I.tags.replaceTags ⟨List.replicate 4 Tag.empty, 0, 0⟩ (tempTags true) = .throw := by
    have hh : I.tags.hasTags ⟨List.replicate 4 Tag.empty, 0, 0⟩ = true := by
      simp [TagSet.hasTags, hp0, TagSet.live]
    have hl : (tempTags true).live = [tempTag] := by simp [tempTags, TagSet.live]
    have hl0 : TagSet.live ⟨List.replicate 4 Tag.empty, 0, 0⟩ = [] := by simp [TagSet.live]
    unfold TagSet.replaceTags
    rw [if_neg (by simp [tempTags]), hh, hl, hl0]
    simp only [Bool.not_true, Bool.false_eq_true, if_false, Res.foldM_nil, Res.bind_ok, Res.foldM_cons]
    unfold TagSet.addTag
    rw [if_neg (by omega)]
    simp [h4, TagSet.maxTags]
  unfold swapTags
  rw [if_neg (by simp), if_neg (by simp; omega)]
  simp only [replaceTags, mapM, withTags, show decide ((0 : Int) ≥ 0) = true from rfl, h1, Res.bind_throw]

/-- Such an index. -/
example : swapTags ⟨List.replicate 4 Tag.empty, 0, 0⟩ ⟨List.replicate 4 Tag.empty, 1, 0⟩
    [⟨7, 2, 1, ⟨[Tag.ofBytes [97], Tag.ofBytes [98], Tag.ofBytes [99], Tag.ofBytes [100]], 0, 4⟩, []⟩] .all = .throw := by decide

end Verif.Index.IndexSet
