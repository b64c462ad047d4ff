import Verif.MPS.Inner

/-! # Lemmas about the index bookkeeping of inner products -/

namespace Verif.MPS

open Verif.Tensor Verif.Index Verif.Index.IndexSet Verif.Net

section
variable {K : Type*} [CommRing K]

/-- The index structure of a chain of tensors: tensor `n` has the indices `S[n]`, the link to the left (`left` for the
first) and the link `l[n]` to the right (none for the last). -/
def Shape (left : Option Key) : List (List Key) → List (List Key) → List Key → Prop
  | [T], [S], [] => ∀ k, k ∈ T ↔ k ∈ S ∨ left = some k
  | T :: U :: Ts, S :: Ss, l :: ls => (∀ k, k ∈ T ↔ k ∈ S ∨ left = some k ∨ k = l) ∧ Shape (some l) (U :: Ts) Ss ls
  | _, _, _ => False

/-- Induction over a chain. -/
theorem Shape.chain {motive : Option Key → List (List Key) → List (List Key) → List Key → Prop}
    (one : ∀ left T S, (∀ k, k ∈ T ↔ k ∈ S ∨ left = some k) → motive left [T] [S] [])
    (cons : ∀ left T U Ts S Ss l ls, (∀ k, k ∈ T ↔ k ∈ S ∨ left = some k ∨ k = l) → Shape (some l) (U :: Ts) Ss ls →
      motive (some l) (U :: Ts) Ss ls → motive left (T :: U :: Ts) (S :: Ss) (l :: ls)) :
    ∀ Ts left Ss ls, Shape left Ts Ss ls → motive left Ts Ss ls := by
  intro Ts
  induction Ts with
  | nil => intro left Ss ls h; simp [Shape] at h
  | cons T Ts ih =>
    intro left Ss ls h
    rcases Ts with _ | ⟨U, Ts⟩
    · rcases Ss with _ | ⟨S, _ | ⟨S', Ss⟩⟩
      · simp [Shape] at h
      · rcases ls with _ | ⟨l, ls⟩
        · exact one _ _ _ h
        · simp [Shape] at h
      · simp [Shape] at h
    · rcases Ss with _ | ⟨S, Ss⟩
      · simp [Shape] at h
      · rcases ls with _ | ⟨l, ls⟩
        · simp [Shape] at h
        · exact cons _ _ _ _ _ _ _ _ h.1 h.2 (ih _ _ _ h.2)

/-- How often a name occurs in a chain. -/
theorem Shape.occ {Ts : List (Ten Key K)} {left : Option Key} {S : List (List Key)} {l : List Key}
    (h : Shape left (Ts.map (·.inds)) S l) (hnd : (S.flatten ++ l).Nodup)
    (hleft : ∀ k, left = some k → k ∉ S.flatten ++ l) (k : Key) :
    Net.occ k Ts = (if k ∈ S.flatten then 1 else 0) + (if k ∈ l then 2 else 0) + (if left = some k then 1 else 0) := by
  generalize hM : Ts.map (·.inds) = M at h
  revert Ts hnd hleft
  refine Shape.chain (motive := fun left M S l => ∀ {Ts : List (Ten Key K)}, (S.flatten ++ l).Nodup →
    (∀ k, left = some k → k ∉ S.flatten ++ l) → Ts.map (·.inds) = M → Net.occ k Ts =
      (if k ∈ S.flatten then 1 else 0) + (if k ∈ l then 2 else 0) + (if left = some k then 1 else 0)) ?_ ?_ M left S l h
  · intro left T S hT Ts hnd hleft hM
    rcases Ts with _ | ⟨A, _ | ⟨B, Bs⟩⟩ <;> simp at hM
    have hA := hT k
    rw [← hM] at hA
    have := hleft k
    simp only [List.flatten_cons, List.flatten_nil, List.append_nil] at this ⊢
    simp only [Net.occ, List.countP_cons, List.countP_nil, decide_eq_true_eq, hA]
    by_cases h1 : k ∈ S <;> by_cases h2 : left = some k <;> simp_all
  · intro left T U Ts' S Ss l ls hT hrest ih Ts hnd hleft hM
    rcases Ts with _ | ⟨A, Bs⟩
    · simp at hM
    simp only [List.map_cons, List.cons.injEq] at hM
    obtain ⟨hA, hB⟩ := hM
    have hk := hT k
    rw [← hA] at hk
    simp only [List.flatten_cons, List.append_assoc] at hnd hleft ⊢
    have hl := hleft k
    rw [List.nodup_append] at hnd
    obtain ⟨n1, n2, n3⟩ := hnd
    have n2' : (Ss.flatten ++ ls).Nodup := by
      rw [List.nodup_append] at n2 ⊢
      refine ⟨n2.1, (List.nodup_cons.1 n2.2.1).2, fun a ha b hb => n2.2.2 a ha b (by simp [hb])⟩
    have hl0 : l ∉ Ss.flatten ++ ls := by
      rw [List.nodup_append] at n2
      intro h
      rcases List.mem_append.1 h with h | h
      · exact n2.2.2 l h l (by simp) rfl
      · exact (List.nodup_cons.1 n2.2.1).1 h
    have hlS : l ∉ S := fun h => n3 l h l (by simp) rfl
    have hi := ih n2' (fun k' e => by cases e; exact hl0) hB
    have e1 : Net.occ k (A :: Bs) = Net.occ k Bs + if k ∈ A.inds then 1 else 0 := by
      simp [Net.occ, List.countP_cons]
    rw [e1, hi]
    have hS3 : k ∈ S → k ∉ Ss.flatten ∧ k ∉ ls := fun h =>
      ⟨fun h' => n3 k h k (by simp [h']) rfl, fun h' => n3 k h k (by simp [h']) rfl⟩
    simp only [hk, List.mem_append, List.mem_cons]
    simp only [List.mem_append, List.mem_cons, not_or] at hl hl0
    by_cases a1 : k = l
    · subst a1
      have a2 : left ≠ some k := fun h => (hl h).2.2.1 rfl
      simp [hlS, hl0.1, hl0.2, a2]
    · have a1' : ¬ some l = some k := fun e => a1 (Option.some.inj e).symm
      by_cases a2 : left = some k
      · obtain ⟨b1, b2, b3, b4⟩ := hl a2
        simp [a1, a1', a2, b1, b2, b4]
      · by_cases a3 : k ∈ S
        · obtain ⟨c1, c2⟩ := hS3 a3
          simp [a1, a1', a2, a3, c1, c2]
        · simp [a1, a1', a2, a3]

end

/-! ## Finding the site and link indices -/

section
variable {K : Type*} [CommRing K] [DecidableEq K]

theorem findIndex_of_keys {is : IndexSet} {k : Key} (hnd : (keys is).Nodup) (h : ∀ k', k' ∈ keys is ↔ k' = k) :
    ∃ i, findIndex is = .ok i ∧ i.key = k ∧ is = [i] := by
  rcases is with _ | ⟨i, _ | ⟨j, js⟩⟩
  · exact absurd ((h k).2 rfl) (by simp [keys])
  · refine ⟨i, by simp [findIndex], (h i.key).1 (by simp [keys]), rfl⟩
  · have h1 := (h i.key).1 (by simp [keys])
    have h2 := (h j.key).1 (by simp [keys])
    simp only [keys, List.map_cons, List.nodup_cons] at hnd
    exact absurd (by simp [h1, h2]) hnd.1

/-- The site index wanted on each tensor is the only one not in `O`. -/
def Pick : List (List Key) → List IndexSet → List Key → Prop
  | [], _, [] => True
  | S :: Ss, O, s :: ss => (∀ k, k ∈ S ∧ k ∉ keys (O.headD []) ↔ k = s) ∧ Pick Ss O.tail ss
  | _, _, _ => False

theorem siteIndsFrom_spec {A : List (DTensor K)} {left : Option Key} {S : List (List Key)} {l s : List Key}
    {O : List IndexSet} {prev : IndexSet} (h : Shape left (A.map (keys ·.is)) S l) (hnd : (S.flatten ++ l).Nodup)
    (hleft : ∀ k, left = some k → k ∈ keys prev) (hprev : ∀ k ∈ keys prev, k ∉ S.flatten)
    (hA : ∀ T ∈ A, (keys T.is).Nodup) (hp : Pick S O s) :
    ∃ r, siteIndsFrom prev A O = .ok r ∧ keys r = s ∧ ∀ i ∈ r, ∃ T ∈ A, i ∈ T.is := by
  generalize hM : A.map (keys ·.is) = M at h
  revert A hnd hleft hprev hA hp hM
  revert O prev s
  refine Shape.chain (motive := fun left M S l => ∀ {O : List IndexSet} {prev : IndexSet} {s : List Key}
    {A : List (DTensor K)}, (S.flatten ++ l).Nodup → (∀ k, left = some k → k ∈ keys prev) →
    (∀ k ∈ keys prev, k ∉ S.flatten) → (∀ T ∈ A, (keys T.is).Nodup) → Pick S O s → A.map (keys ·.is) = M →
    ∃ r, siteIndsFrom prev A O = .ok r ∧ keys r = s ∧ ∀ i ∈ r, ∃ T ∈ A, i ∈ T.is) ?_ ?_ M left S l h
  · intro left T S hT O prev s A hnd hleft hprev hA hp hM
    rcases A with _ | ⟨A, _ | ⟨B, Bs⟩⟩ <;> simp at hM
    rcases s with _ | ⟨s, _ | ⟨s', ss⟩⟩ <;> simp only [Pick, and_true, and_false] at hp
    have hu := (C11_unique A.is [] [prev, [], O.headD []]).2.2.2
    have hndu : (keys (uniqueIndsL A.is [prev, [], O.headD []])).Nodup := by
      unfold uniqueIndsL
      exact (C11_unique A.is _ []).2.2.1 (hA A (by simp))
    obtain ⟨i, e, hk, hi⟩ := findIndex_of_keys (k := s) hndu (by
      intro k
      rw [hu, hM, hT]
      have := hp k
      simp only [List.mem_cons, List.not_mem_nil, or_false, forall_eq_or_imp, forall_eq, List.flatten_cons,
        List.flatten_nil, List.append_nil] at hprev ⊢
      have h1 := hprev k
      have h2 := hleft k
      have h3 : k ∉ keys ([] : IndexSet) := by simp [keys]
      tauto)
    refine ⟨[i], ?_, by simp [keys, hk], ?_⟩
    · simp only [siteIndsFrom, headInds, e, Res.bind]
    · intro j hj
      simp at hj
      subst hj
      refine ⟨A, by simp, ?_⟩
      have : j ∈ uniqueIndsL A.is [prev, [], O.headD []] := by rw [hi]; simp
      unfold uniqueIndsL uniqueInds at this
      exact (List.mem_filter.1 this).1
  · intro left T U Ts' S Ss l ls hT hrest ih O prev s A hnd hleft hprev hA hp hM
    rcases A with _ | ⟨A, _ | ⟨B, Bs⟩⟩ <;> simp at hM
    obtain ⟨hA0, hB0, hBs⟩ := hM
    rcases s with _ | ⟨s, ss⟩ <;> simp only [Pick] at hp
    obtain ⟨hp0, hps⟩ := hp
    simp only [List.flatten_cons, List.append_assoc] at hnd hprev
    rw [List.nodup_append] at hnd
    obtain ⟨n1, n2, n3⟩ := hnd
    have n2c := n2
    rw [List.nodup_append] at n2
    have n2' : (Ss.flatten ++ ls).Nodup := by
      rw [List.nodup_append]
      refine ⟨n2.1, (List.nodup_cons.1 n2.2.1).2, fun a ha b hb => n2.2.2 a ha b (by simp [hb])⟩
    have hUl : ∃ SU SS, Ss = SU :: SS ∧ ∀ k, k ∈ U → k ∈ SU ∨ k = l ∨ k ∈ ls := by
      rcases Ss with _ | ⟨SU, SS⟩
      · simp [Shape] at hrest
      · refine ⟨SU, SS, rfl, fun k hk => ?_⟩
        rcases Ts' with _ | ⟨V, Ts'⟩
        · rcases SS with _ | ⟨SV, SS⟩
          · rcases ls with _ | ⟨l2, ls⟩
            · rcases (hrest k).1 hk with h | h
              · exact Or.inl h
              · cases h; exact Or.inr (Or.inl rfl)
            · simp [Shape] at hrest
          · simp [Shape] at hrest
        · rcases ls with _ | ⟨l2, ls⟩
          · simp [Shape] at hrest
          · rcases (hrest.1 k).1 hk with h | h | h
            · exact Or.inl h
            · cases h; exact Or.inr (Or.inl rfl)
            · subst h; exact Or.inr (Or.inr (by simp))
    have hlU : l ∈ U := by
      rcases Ss with _ | ⟨SU, SS⟩
      · simp [Shape] at hrest
      · rcases Ts' with _ | ⟨V, Ts'⟩
        · rcases SS with _ | ⟨SV, SS⟩
          · rcases ls with _ | ⟨l2, ls⟩
            · exact (hrest l).2 (Or.inr rfl)
            · simp [Shape] at hrest
          · simp [Shape] at hrest
        · rcases ls with _ | ⟨l2, ls⟩
          · simp [Shape] at hrest
          · exact (hrest.1 l).2 (Or.inr (Or.inl rfl))
    obtain ⟨SU, SS, hSS, hU⟩ := hUl
    have hu := (C11_unique A.is [] [prev, B.is, O.headD []]).2.2.2
    have hndu : (keys (uniqueIndsL A.is [prev, B.is, O.headD []])).Nodup := by
      unfold uniqueIndsL
      exact (C11_unique A.is _ []).2.2.1 (hA A (by simp))
    obtain ⟨i, e, hk, hi⟩ := findIndex_of_keys (k := s) hndu (by
      intro k
      rw [hu, hA0, hT]
      have h0 := hp0 k
      have h1 := hprev k
      have h2 := hleft k
      have h3 : k ∈ S → k ∉ U := by
        intro hkS hkU
        rcases hU k hkU with h | h | h
        · exact n3 k hkS k (by simp [hSS, h]) rfl
        · exact n3 k hkS k (by simp [h]) rfl
        · exact n3 k hkS k (by simp [h]) rfl
      have h4 : k = l → k ∈ U := by rintro rfl; exact hlU
      simp only [List.mem_cons, List.not_mem_nil, or_false, forall_eq_or_imp, forall_eq, List.mem_append, hB0] at h1 ⊢
      tauto)
    obtain ⟨r, er, kr, mr⟩ := ih (O := O.tail) (prev := A.is) (s := ss) (A := B :: Bs) n2'
      (by
        intro k hk
        cases hk
        rw [hA0, hT]; exact Or.inr (Or.inr rfl))
      (by
        intro k hk
        rw [hA0, hT] at hk
        intro hkS
        rcases hk with h | h | h
        · exact n3 k h k (by simp [hkS]) rfl
        · exact hprev k (hleft k h) (by simp [hkS])
        · subst h; exact n2.2.2 k hkS k (by simp) rfl)
      (fun T hT => hA T (by simp at hT ⊢; tauto)) hps (by simp [hB0, hBs])
    refine ⟨i :: r, ?_, by simp only [keys, List.map_cons, hk] at kr ⊢; rw [kr], ?_⟩
    · rw [siteIndsFrom]
      simp only [headInds, e, Res.bind, er]
    · intro j hj
      rcases List.mem_cons.1 hj with rfl | hj
      · refine ⟨A, by simp, ?_⟩
        have : j ∈ uniqueIndsL A.is [prev, B.is, O.headD []] := by rw [hi]; simp
        unfold uniqueIndsL uniqueInds at this
        exact (List.mem_filter.1 this).1
      · obtain ⟨T, hT1, hT2⟩ := mr j hj
        exact ⟨T, by simp at hT1 ⊢; tauto, hT2⟩

theorem Shape.head {l : Key} {U : List Key} {Ts Ss : List (List Key)} {ls : List Key}
    (h : Shape (some l) (U :: Ts) Ss ls) :
    l ∈ U ∧ ∃ SU SS, Ss = SU :: SS ∧ ∀ k, k ∈ U → k ∈ SU ∨ k = l ∨ k ∈ ls := by
  rcases Ss with _ | ⟨SU, SS⟩
  · simp [Shape] at h
  rcases Ts with _ | ⟨V, Ts⟩
  · rcases SS with _ | ⟨SV, SS⟩
    · rcases ls with _ | ⟨l2, ls⟩
      · refine ⟨(h l).2 (Or.inr rfl), SU, [], rfl, fun k hk => ?_⟩
        rcases (h k).1 hk with h | h
        · exact Or.inl h
        · cases h; exact Or.inr (Or.inl rfl)
      · simp [Shape] at h
    · simp [Shape] at h
  · rcases ls with _ | ⟨l2, ls⟩
    · simp [Shape] at h
    · refine ⟨(h.1 l).2 (Or.inr (Or.inl rfl)), SU, SS, rfl, fun k hk => ?_⟩
      rcases (h.1 k).1 hk with h | h | h
      · exact Or.inl h
      · cases h; exact Or.inr (Or.inl rfl)
      · subst h; exact Or.inr (Or.inr (by simp))

theorem linkInds_spec {A : List (DTensor K)} {left : Option Key} {S : List (List Key)} {l : List Key}
    (h : Shape left (A.map (keys ·.is)) S l) (hnd : (S.flatten ++ l).Nodup)
    (hleft : ∀ k, left = some k → k ∉ S.flatten ++ l)
    (hA : ∀ T ∈ A, (keys T.is).Nodup) (hid : ∀ T ∈ A, ∀ i ∈ T.is, i.id ≠ 0) :
    ∃ r, linkInds A = .ok r ∧ keys r = l ∧ ∀ i ∈ r, ∃ T ∈ A, i ∈ T.is := by
  generalize hM : A.map (keys ·.is) = M at h
  revert A hnd hleft hA hid hM
  refine Shape.chain (motive := fun left M S l => ∀ {A : List (DTensor K)}, (S.flatten ++ l).Nodup →
    (∀ k, left = some k → k ∉ S.flatten ++ l) → (∀ T ∈ A, (keys T.is).Nodup) → (∀ T ∈ A, ∀ i ∈ T.is, i.id ≠ 0) →
    A.map (keys ·.is) = M → ∃ r, linkInds A = .ok r ∧ keys r = l ∧ ∀ i ∈ r, ∃ T ∈ A, i ∈ T.is) ?_ ?_ M left S l h
  · intro left T S hT A hnd hleft hA hid hM
    rcases A with _ | ⟨A, _ | ⟨B, Bs⟩⟩ <;> simp at hM
    exact ⟨[], rfl, rfl, by simp⟩
  · intro left T U Ts' S Ss l ls hT hrest ih A hnd hleft hA hid hM
    rcases A with _ | ⟨A, _ | ⟨B, Bs⟩⟩ <;> simp at hM
    obtain ⟨hA0, hB0, hBs⟩ := hM
    simp only [List.flatten_cons, List.append_assoc] at hnd hleft
    rw [List.nodup_append] at hnd
    obtain ⟨n1, n2, n3⟩ := hnd
    rw [List.nodup_append] at n2
    have n2' : (Ss.flatten ++ ls).Nodup := by
      rw [List.nodup_append]
      refine ⟨n2.1, (List.nodup_cons.1 n2.2.1).2, fun a ha b hb => n2.2.2 a ha b (by simp [hb])⟩
    obtain ⟨hlU, SU, SS, hSS, hU⟩ := hrest.head
    have hc := C11_common A.is B.is
    obtain ⟨i, e, hk, hi⟩ := findIndex_of_keys (k := l) (hc.2.2 (hA A (by simp))) (by
      intro k
      rw [hc.1, hA0, hB0, hT]
      constructor
      · rintro ⟨h1, h2⟩
        have h2' := hU k h2
        rcases h1 with h | h | h
        · exfalso
          rcases h2' with h' | h' | h'
          · exact n3 k h k (by simp [hSS, h']) rfl
          · exact n3 k h k (by simp [h']) rfl
          · exact n3 k h k (by simp [h']) rfl
        · exfalso
          have := hleft k h
          simp only [List.mem_append, List.mem_cons, not_or, hSS, List.flatten_cons] at this
          tauto
        · exact h
      · rintro rfl
        exact ⟨Or.inr (Or.inr rfl), hlU⟩)
    have hiA : i ∈ A.is := by
      have : i ∈ commonInds A.is B.is := by rw [hi]; simp
      unfold commonInds at this
      exact (List.mem_filter.1 this).1
    obtain ⟨r, er, kr, mr⟩ := ih (A := B :: Bs) n2'
      (by
        intro k hk
        cases hk
        intro h
        rcases List.mem_append.1 h with h | h
        · exact n2.2.2 l h l (by simp) rfl
        · exact (List.nodup_cons.1 n2.2.1).1 h)
      (fun T hT => hA T (by simp at hT ⊢; tauto)) (fun T hT => hid T (by simp at hT ⊢; tauto)) (by simp [hB0, hBs])
    have hnn : i.nonNull = true := by simpa [Index.nonNull] using hid A (by simp) i hiA
    refine ⟨i :: r, ?_, by simp only [keys, List.map_cons, hk] at kr ⊢; rw [kr], ?_⟩
    · simp only [linkInds, e, Res.bind, hnn, er]; rfl
    · intro j hj
      rcases List.mem_cons.1 hj with rfl | hj
      · exact ⟨A, by simp, hiA⟩
      · obtain ⟨T, hT1, hT2⟩ := mr j hj
        exact ⟨T, by simp at hT1 ⊢; tauto, hT2⟩

/-! ## Renaming indices -/

/-- An index without quantum numbers as the library makes it, with a prime level in the usual range. -/
structure Plain (i : Index) : Prop where
  dir : i.dir = 1 ∨ i.dir = -1
  id : i.id ≠ 0
  qns : i.qns = []
  lo : 0 ≤ i.tags.plev
  hi : i.tags.plev < replTemp

/-- `U` is `T` with every index renamed by `ren` and every element mapped by `c`. -/
def Renamed (ren : Key → Key) (c : K → K) (T U : DTensor K) : Prop :=
  ∃ f : Index → Index, U.is = T.is.map f ∧ (∀ a, U.store a = c (T.store a)) ∧
    ∀ i ∈ T.is, (f i).key = ren i.key ∧ (f i).dim = i.dim ∧ Plain (f i)

omit [CommRing K] [DecidableEq K] in
theorem Renamed.trans {ren ren' : Key → Key} {c c' : K → K} {T U V : DTensor K} (h : Renamed ren c T U)
    (h' : Renamed ren' c' U V) : Renamed (fun k => ren' (ren k)) (fun x => c' (c x)) T V := by
  obtain ⟨f, f1, f2, f3⟩ := h
  obtain ⟨g, g1, g2, g3⟩ := h'
  refine ⟨fun i => g (f i), by rw [g1, f1, List.map_map]; rfl, fun a => by rw [g2, f2], fun i hi => ?_⟩
  obtain ⟨a1, a2, _⟩ := f3 i hi
  obtain ⟨b1, b2, b3⟩ := g3 (f i) (by rw [f1]; exact List.mem_map_of_mem hi)
  exact ⟨by rw [b1, a1], by rw [b2, a2], b3⟩

omit [CommRing K] [DecidableEq K] in
theorem Renamed.keys {ren : Key → Key} {c : K → K} {T U : DTensor K} (h : Renamed ren c T U) :
    keys U.is = (keys T.is).map ren := by
  obtain ⟨f, f1, _, f3⟩ := h
  simp only [IndexSet.keys, f1, List.map_map]
  exact List.map_congr_left fun i hi => (f3 i hi).1

omit [CommRing K] [DecidableEq K] in
theorem Renamed.plain {ren : Key → Key} {c : K → K} {T U : DTensor K} (h : Renamed ren c T U) :
    ∀ i ∈ U.is, Plain i := by
  obtain ⟨f, f1, _, f3⟩ := h
  intro i hi
  rw [f1] at hi
  obtain ⟨j, hj, rfl⟩ := List.mem_map.1 hi
  exact (f3 j hj).2.2

omit [DecidableEq K] in
theorem replaceIndsD_spec {T : DTensor K} {is1 is2 : IndexSet} {ren : Key → Key} (hT : (keys T.is).Nodup)
    (h2 : (keys is2).Nodup) (hlen : is1.length = is2.length) (pT : ∀ i ∈ T.is, Plain i) (p2 : ∀ i ∈ is2, Plain i)
    (h1 : ∀ i ∈ is1, i.id ≠ 0)
    (hdim : ∀ i (h : i < is1.length), ∀ j ∈ T.is, j.key = is1[i].key → j.dim = is2[i].dim)
    (hr : ∀ i (h : i < is1.length), ∀ j ∈ T.is, j.key = is1[i].key → ren j.key = is2[i].key)
    (hr' : ∀ j ∈ T.is, j.key ∉ keys is1 → ren j.key = j.key) :
    ∃ U, replaceIndsD T is1 is2 = .ok U ∧ Renamed ren id T U := by
  have e := C13_replaceInds T.is is1 is2 hT h2 hlen (fun j hj => (pT j hj).dir) (fun j hj => (p2 j hj).dir)
    (by
      intro j hj hk
      obtain ⟨i, hi, e⟩ := List.mem_map.1 hk
      have e2 : i.tags.plev = j.tags.plev + replTemp := congrArg (fun x : Key => x.2.1) e
      have := (pT i hi).hi
      have := (p2 j hj).lo
      omega) hdim
  refine ⟨⟨T.is.map (substIdx is1 is2), T.store⟩, by simp [replaceIndsD, e, Res.bind], substIdx is1 is2, rfl,
    fun _ => rfl, fun j hj => ?_⟩
  unfold substIdx
  cases hf : is1.findIdx? (fun x => x.nonNull && j.eq x) with
  | none =>
    have : j.key ∉ keys is1 := by
      intro hk
      obtain ⟨i, hi, ek⟩ := List.mem_map.1 hk
      have := List.findIdx?_eq_none_iff.1 hf i hi
      have hnn : i.nonNull = true := by simpa [Index.nonNull] using h1 i hi
      rw [hnn, Index.eq_iff.2 ek.symm] at this
      simp at this
    exact ⟨(hr' j hj this).symm, rfl, pT j hj⟩
  | some i =>
    obtain ⟨hi, hp, _⟩ := List.findIdx?_eq_some_iff_getElem.1 hf
    have hk : j.key = is1[i].key := by
      simp only [Bool.and_eq_true] at hp
      exact Index.eq_iff.1 hp.2
    have hi2 : i < is2.length := by omega
    simp only [List.getElem?_eq_getElem hi2]
    have hP := p2 is2[i] (List.getElem_mem _)
    refine ⟨(hr i hi j hj hk).symm, (hdim i hi j hj hk).symm, ⟨(pT j hj).dir, hP.id, hP.qns, hP.lo, hP.hi⟩⟩

/-- `b` is what `a` is to be replaced by. -/
structure Match (ren : Key → Key) (ext : Key → Nat) (a b : Index) : Prop where
  key : b.key = ren a.key
  dim : b.dim = ext a.key
  id : a.id ≠ 0
  plain : Plain b

theorem replaceSites_spec {ren : Key → Key} {ext : Key → Nat} : ∀ (A : List (DTensor K)) (sx sites : IndexSet),
    A.length = sx.length → List.Forall₂ (Match ren ext) sx sites →
    (∀ T ∈ A, T.OK ext ∧ ∀ i ∈ T.is, Plain i) →
    (∀ n (h : n < A.length) (h' : n < sx.length), ∀ k ∈ keys A[n].is, k ≠ sx[n].key → ren k = k) →
    ∃ B, replaceSites A sx sites = .ok B ∧ List.Forall₂ (Renamed ren id) A B := by
  intro A
  induction A with
  | nil => intro sx sites _ _ _ _; exact ⟨[], rfl, .nil⟩
  | cons T Ts ih =>
    intro sx sites hlen hm hok hren
    rcases sx with _ | ⟨a, as⟩
    · simp at hlen
    obtain ⟨b, bs, hab, hasbs, rfl⟩ : ∃ b bs, Match ren ext a b ∧ List.Forall₂ (Match ren ext) as bs ∧ sites = b :: bs := by
      cases hm with | cons h1 h2 => exact ⟨_, _, h1, h2, rfl⟩
    obtain ⟨okT, plT⟩ := hok T (by simp)
    obtain ⟨U, eU, rU⟩ := replaceIndsD_spec (T := T) (is1 := [a]) (is2 := [b]) (ren := ren) okT.nodup (by simp [keys])
      rfl plT (by simpa using hab.plain) (by simpa using hab.id)
      (by
        intro i hi j hj e
        have : i = 0 := by simp at hi; omega
        subst this
        simp only [List.getElem_cons_zero] at e ⊢
        rw [okT.dims j hj, hab.dim, e])
      (by
        intro i hi j hj e
        have : i = 0 := by simp at hi; omega
        subst this
        simp only [List.getElem_cons_zero] at e ⊢
        rw [hab.key, e])
      (by
        intro j hj hk
        have hk' : j.key ≠ a.key := by simpa [keys] using hk
        exact hren 0 (by simp) (by simp) j.key (List.mem_map_of_mem hj) hk')
    obtain ⟨B, eB, rB⟩ := ih as bs (by simpa using hlen) hasbs (fun T hT => hok T (by simp [hT])) (by
      intro n h h' k hk hne
      exact hren (n + 1) (by simpa using h) (by simpa using h') k (by simpa using hk) (by simpa using hne))
    exact ⟨U :: B, by simp [replaceSites, eU, eB, Res.bind], .cons rU rB⟩

theorem replaceLinks_spec {ren : Key → Key} {ext : Key → Nat} {A : List (DTensor K)} {left : Option Key}
    {S : List (List Key)} {l : List Key} (h : Shape left (A.map (keys ·.is)) S l) {lx links po pn : IndexSet}
    (hlx : keys lx = l) (hm : List.Forall₂ (Match ren ext) lx links)
    (hpo : (left = none ∧ po = [] ∧ pn = []) ∨ ∃ a b, po = [a] ∧ pn = [b] ∧ left = some a.key ∧ Match ren ext a b)
    (hS : ∀ k ∈ S.flatten, ren k = k) (hok : ∀ T ∈ A, T.OK ext ∧ ∀ i ∈ T.is, Plain i)
    (hnd : (keys (pn ++ links)).Nodup) :
    ∃ B, replaceLinks po pn A lx links = .ok B ∧ List.Forall₂ (Renamed ren id) A B := by
  generalize hM : A.map (keys ·.is) = M at h
  revert A lx links po pn
  refine Shape.chain (motive := fun left M S l => (∀ k ∈ S.flatten, ren k = k) → ∀ {A : List (DTensor K)}
    {lx links po pn : IndexSet}, keys lx = l → List.Forall₂ (Match ren ext) lx links →
    ((left = none ∧ po = [] ∧ pn = []) ∨ ∃ a b, po = [a] ∧ pn = [b] ∧ left = some a.key ∧ Match ren ext a b) →
    (∀ T ∈ A, T.OK ext ∧ ∀ i ∈ T.is, Plain i) → (keys (pn ++ links)).Nodup → A.map (keys ·.is) = M →
    ∃ B, replaceLinks po pn A lx links = .ok B ∧ List.Forall₂ (Renamed ren id) A B) ?_ ?_ M left S l h hS
  · intro left T S hT hS A lx links po pn hlx hm hpo hok hnd hM
    rcases A with _ | ⟨A, _ | ⟨B, Bs⟩⟩ <;> simp at hM
    have hlx0 : lx = [] := by simpa [keys] using hlx
    subst hlx0
    cases hm
    obtain ⟨okT, plT⟩ := hok A (by simp)
    have hkey : ∀ j ∈ A.is, j.key ∈ S ∨ left = some j.key := by
      intro j hj
      rw [← hT, ← hM]; exact List.mem_map_of_mem hj
    obtain ⟨U, eU, rU⟩ : ∃ U, replaceIndsD A po pn = .ok U ∧ Renamed ren id A U := by
      rcases hpo with ⟨h1, rfl, rfl⟩ | ⟨a, b, rfl, rfl, h1, hab⟩
      · refine replaceIndsD_spec okT.nodup (by simp [keys]) rfl plT (by simp) (by simp) (by simp) (by simp) ?_
        intro j hj _
        rcases hkey j hj with h | h
        · exact hS _ (by simpa using h)
        · rw [h1] at h; cases h
      · refine replaceIndsD_spec okT.nodup (by simp [keys]) rfl plT (by simpa using hab.plain) (by simpa using hab.id) ?_ ?_ ?_
        · intro i hi j hj e
          have : i = 0 := by simp at hi; omega
          subst this
          simp only [List.getElem_cons_zero] at e ⊢
          rw [okT.dims j hj, hab.dim, e]
        · intro i hi j hj e
          have : i = 0 := by simp at hi; omega
          subst this
          simp only [List.getElem_cons_zero] at e ⊢
          rw [hab.key, e]
        · intro j hj hk
          have hk' : j.key ≠ a.key := by simpa [keys] using hk
          rcases hkey j hj with h | h
          · exact hS _ (by simpa using h)
          · rw [h1] at h; exact absurd (Option.some.inj h).symm hk'
    exact ⟨[U], by simp [replaceLinks, eU, Res.bind], .cons rU .nil⟩
  · intro left T U Ts' S Ss l ls hT hrest ih hS A lx links po pn hlx hm hpo hok hnd hM
    rcases A with _ | ⟨A, _ | ⟨B, Bs⟩⟩ <;> simp at hM
    obtain ⟨hA0, hB0, hBs⟩ := hM
    rcases lx with _ | ⟨a, as⟩
    · simp [keys] at hlx
    obtain ⟨b, bs, hab, hasbs, rfl⟩ : ∃ b bs, Match ren ext a b ∧ List.Forall₂ (Match ren ext) as bs ∧ links = b :: bs := by
      cases hm with | cons h1 h2 => exact ⟨_, _, h1, h2, rfl⟩
    have hlx' : a.key = l ∧ keys as = ls := by
      simpa only [keys, List.map_cons, List.cons.injEq] using hlx
    obtain ⟨okT, plT⟩ := hok A (by simp)
    have hkey : ∀ j ∈ A.is, j.key ∈ S ∨ left = some j.key ∨ j.key = l := by
      intro j hj
      rw [← hT, ← hA0]; exact List.mem_map_of_mem hj
    have hSS : ∀ k ∈ S, ren k = k := fun k hk => hS k (by simp [hk])
    obtain ⟨V, eV, rV⟩ : ∃ V, replaceIndsD A (po ++ [a]) (pn ++ [b]) = .ok V ∧ Renamed ren id A V := by
      rcases hpo with ⟨h1, rfl, rfl⟩ | ⟨a0, b0, rfl, rfl, h1, hab0⟩
      · refine replaceIndsD_spec okT.nodup (by simp [keys]) rfl plT (by simpa using hab.plain) (by simpa using hab.id) ?_ ?_ ?_
        · intro i hi j hj e
          have : i = 0 := by simp at hi; omega
          subst this
          simp only [List.nil_append, List.getElem_cons_zero] at e ⊢
          rw [okT.dims j hj, hab.dim, e]
        · intro i hi j hj e
          have : i = 0 := by simp at hi; omega
          subst this
          simp only [List.nil_append, List.getElem_cons_zero] at e ⊢
          rw [hab.key, e]
        · intro j hj hk
          have hk' : j.key ≠ a.key := by simpa [keys] using hk
          rcases hkey j hj with h | h | h
          · exact hSS _ h
          · rw [h1] at h; cases h
          · exact absurd (h.trans hlx'.1.symm) hk'
      · refine replaceIndsD_spec okT.nodup ?_ rfl plT ?_ ?_ ?_ ?_ ?_
        · refine List.Nodup.sublist ?_ hnd
          simp only [keys, List.map_append, List.map_cons, List.map_nil]
          exact List.Sublist.append_left (by simp) _
        · intro i hi
          simp only [List.singleton_append, List.mem_cons, List.not_mem_nil, or_false] at hi
          rcases hi with rfl | rfl
          · exact hab0.plain
          · exact hab.plain
        · intro i hi
          simp only [List.singleton_append, List.mem_cons, List.not_mem_nil, or_false] at hi
          rcases hi with rfl | rfl
          · exact hab0.id
          · exact hab.id
        · intro i hi j hj e
          have : i = 0 ∨ i = 1 := by simp at hi; omega
          rcases this with rfl | rfl
          · simp only [List.singleton_append, List.getElem_cons_zero] at e ⊢
            rw [okT.dims j hj, hab0.dim, e]
          · simp only [List.singleton_append, List.getElem_cons_succ, List.getElem_cons_zero] at e ⊢
            rw [okT.dims j hj, hab.dim, e]
        · intro i hi j hj e
          have : i = 0 ∨ i = 1 := by simp at hi; omega
          rcases this with rfl | rfl
          · simp only [List.singleton_append, List.getElem_cons_zero] at e ⊢
            rw [hab0.key, e]
          · simp only [List.singleton_append, List.getElem_cons_succ, List.getElem_cons_zero] at e ⊢
            rw [hab.key, e]
        · intro j hj hk
          have hk' : j.key ≠ a0.key ∧ j.key ≠ a.key := by
            simpa [keys, not_or] using hk
          rcases hkey j hj with h | h | h
          · exact hSS _ h
          · rw [h1] at h; exact absurd (Option.some.inj h).symm hk'.1
          · exact absurd (h.trans hlx'.1.symm) hk'.2
    obtain ⟨W, eW, rW⟩ := ih (fun k hk => hS k (by simp at hk ⊢; tauto)) (A := B :: Bs) (lx := as) (links := bs)
      (po := [a]) (pn := [b]) hlx'.2 hasbs (Or.inr ⟨a, b, rfl, rfl, by rw [hlx'.1], hab⟩)
      (fun T hT => hok T (by simp at hT ⊢; tauto))
      (by
        refine List.Nodup.sublist ?_ hnd
        simp only [keys, List.map_append, List.map_cons, List.map_nil, List.singleton_append]
        exact List.sublist_append_right _ _) (by simp [hB0, hBs])
    refine ⟨V :: W, ?_, .cons rV rW⟩
    rw [replaceLinks]
    · simp only [eV, eW, Res.bind]
    all_goals simp

end

end Verif.MPS
