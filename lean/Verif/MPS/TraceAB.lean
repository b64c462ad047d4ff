import Verif.MPS.Trace

/-! # The trace of a product of operators -/

namespace Verif.MPS

open Verif.Tensor Verif.Index Verif.Index.IndexSet Verif.Net Finset

variable {K : Type*} [CommRing K] [DecidableEq K]

/-! ## Sizes -/

omit [DecidableEq K] in
theorem sizes2n {ext : Key → Nat} {d fuel n : Nat} (hd : 1 ≤ d) (hext : ∀ k, ext k ≤ d) (hmax : ((d ^ (n + 2) : Nat) : Int) ≤ offMax)
    (hfuel : d ^ (n + 2) < fuel) : ∀ (A B : List (Ten Key K)) (left left2 : Key) (S : List (List Key)) (l m : List Key) (t : PTree (Ten Key K)),
    (∀ s ∈ S, s.length ≤ n) →
    Shape (some left) (A.map (·.inds)) S l → Shape (some left2) (B.map (·.inds)) S m →
    (∀ T ∈ A, T.OK) → (∀ T ∈ B, T.OK) → (t.eval ext).OK → (∀ k, k ∈ (t.eval ext).inds ↔ k = left ∨ k = left2) →
    (left :: left2 :: (S.flatten ++ (l ++ m))).Nodup → SizesOK ext fuel t → SizesOK ext fuel (chainTree t (interleave A B)) := by
  have bound : ∀ {T : Ten Key K} {a b : Key} {s : List Key}, s.length ≤ n → T.OK → (∀ k ∈ T.inds, k = a ∨ k = b ∨ k ∈ s) →
      ((T.inds.map ext).prod : Int) ≤ offMax ∧ (T.inds.map ext).prod < fuel := by
    intro T a b s hs hT h
    have : (T.inds.map ext).prod ≤ d ^ (n + 2) := inds_le hd hext hT.nodup (L := a :: b :: s) (by
      intro k hk; simpa using h k hk) (by simpa using hs)
    exact ⟨le_trans (by exact_mod_cast this) hmax, by omega⟩
  intro A
  induction A with
  | nil => intro B left left2 s l m t _ h; simp [Shape] at h
  | cons a A ih =>
    intro B left left2 S l m t hS hA hB okA okB okt ht hnd hst
    rcases B with _ | ⟨b, B⟩
    · simp [Shape] at hB
    have oka := okA a (by simp)
    have okb := okB b (by simp)
    have okta := mul_ok ext okt oka
    have oktab := mul_ok ext okta okb
    rcases S with _ | ⟨s, ss⟩
    · rcases A with _ | ⟨a', A⟩ <;> simp [Shape] at hA
    have hsn := hS s (by simp)
    simp only [List.flatten_cons, List.nodup_cons, List.mem_cons, List.mem_append, not_or] at hnd
    obtain ⟨⟨p1, ⟨p2, p3⟩, p4, p5⟩, ⟨⟨q1, q2⟩, q3, q4⟩, hnd⟩ := hnd
    rcases A with _ | ⟨a', A⟩
    · -- last site
      rcases ss with _ | ⟨s', ss⟩
      swap
      · simp [Shape] at hA
      rcases l with _ | ⟨l, ls⟩
      swap
      · simp [Shape] at hA
      rcases B with _ | ⟨b', B⟩
      swap
      · rcases m with _ | ⟨m, ms⟩
        · simp [Shape] at hB
        · rcases B with _ | ⟨b'', B⟩ <;> simp [Shape] at hB
      rcases m with _ | ⟨m, ms⟩
      swap
      · simp [Shape] at hB
      simp only [List.map_cons, List.map_nil, Shape, Option.some.injEq] at hA hB
      simp only [interleave, chainTree, SizesOK]
      refine ⟨⟨hst, bound (a := left) (b := left) hsn oka fun k hk => ?_, ?_⟩, bound (a := left2) (b := left2) hsn okb
        fun k hk => ?_, ?_⟩
      · rcases (hA k).1 hk with h | h
        · exact Or.inr (Or.inr h)
        · exact Or.inr (Or.inl h.symm)
      · refine bound (a := left2) (b := left2) hsn okta fun k hk => ?_
        simp only [PTree.eval] at hk
        rw [Net.mul_mem, ht, hA] at hk
        grind
      · rcases (hB k).1 hk with h | h
        · exact Or.inr (Or.inr h)
        · exact Or.inr (Or.inl h.symm)
      · refine bound (a := left) (b := left) hsn oktab fun k hk => ?_
        simp only [PTree.eval] at hk
        rw [Net.mul_mem, Net.mul_mem, ht, hA, hB] at hk
        grind
    · rcases l with _ | ⟨l, ls⟩
      · simp [Shape] at hA
      rcases B with _ | ⟨b', B⟩
      · rcases ss with _ | ⟨s', ss⟩
        · simp [Shape] at hA
        · simp [Shape] at hB
      rcases m with _ | ⟨m, ms⟩
      · simp [Shape] at hB
      simp only [List.map_cons, Shape, Option.some.injEq] at hA hB
      obtain ⟨hA, hA'⟩ := hA
      obtain ⟨hB, hB'⟩ := hB
      rw [List.append_assoc, List.nodup_append] at hnd
      obtain ⟨_, hnd, hsd⟩ := hnd
      have hsl : ∀ k ∈ s, k ≠ l ∧ k ≠ m := fun k hk => ⟨hsd k hk l (by simp), hsd k hk m (by simp)⟩
      rw [List.nodup_append] at hnd
      obtain ⟨n1, n2, n3⟩ := hnd
      rw [List.nodup_append] at n2
      obtain ⟨n4, n5, n6⟩ := n2
      simp only [List.mem_cons, not_or] at p4 p5 q3 q4
      have hlm : l ≠ m := n6 l (by simp) m (by simp)
      have memtab : ∀ k, k ∈ (mul ext (mul ext (t.eval ext) a) b).inds ↔ k = l ∨ k = m := by
        intro k
        have := hsl k
        rw [Net.mul_mem, Net.mul_mem, ht, hA, hB]
        grind
      have memta : ∀ k, k ∈ (mul ext (t.eval ext) a).inds → k = left2 ∨ k = l ∨ k ∈ s := by
        intro k
        rw [Net.mul_mem, ht, hA]
        grind
      rw [interleave]
      simp only [chainTree]
      refine ih (b' :: B) l m ss ls ms _ (fun x hx => hS x (by simp [hx])) (by simpa [Shape] using hA') (by simpa [Shape] using hB') (fun T hT => okA T (by simp at hT ⊢; tauto))
        (fun T hT => okB T (by simp at hT ⊢; tauto)) oktab memtab ?_ ?_
      · refine List.nodup_cons.2 ⟨?_, List.nodup_cons.2 ⟨?_, ?_⟩⟩
        · simp only [List.mem_cons, List.mem_append, not_or]
          exact ⟨hlm, fun h => n3 l h l (by simp) rfl, (List.nodup_cons.1 n4).1, fun h => n6 l (by simp) l (by simp [h]) rfl⟩
        · simp only [List.mem_append, not_or]
          exact ⟨fun h => n3 m h m (by simp) rfl, fun h => n6 m (by simp [h]) m (by simp) rfl, (List.nodup_cons.1 n5).1⟩
        · rw [List.nodup_append, List.nodup_append]
          refine ⟨n1, ⟨(List.nodup_cons.1 n4).2, (List.nodup_cons.1 n5).2, fun x hx y hy => n6 x (by simp [hx]) y (by simp [hy])⟩, ?_⟩
          intro x hx y hy
          refine n3 x hx y ?_
          simp only [List.mem_append, List.mem_cons] at hy ⊢
          tauto
      · simp only [SizesOK]
        refine ⟨⟨hst, bound (a := left) (b := l) hsn oka fun k hk => ?_, bound (a := left2) (b := l) hsn okta memta⟩,
          bound (a := left2) (b := m) hsn okb fun k hk => ?_, bound (a := l) (b := m) (s := []) (by simp) oktab fun k hk => ?_⟩
        · have := (hA k).1 hk; grind
        · have := (hB k).1 hk; grind
        · rw [PTree.eval] at hk
          have := (memtab k).1 hk; tauto

theorem sizes_pair {ext : Key → Nat} {d fuel n : Nat} (hd : 1 ≤ d) (hext : ∀ k, ext k ≤ d) (hmax : ((d ^ (n + 2) : Nat) : Int) ≤ offMax)
    (hfuel : d ^ (n + 2) < fuel) {A B : List (DTensor K)} {a b : DTensor K} {S : List (List Key)} {l m : List Key}
    (hS : ∀ s ∈ S, s.length ≤ n) (hA : IsChain ext (a :: A) S l)
    (hB : IsChain ext (b :: B) S m) (hnd : (S.flatten ++ (l ++ m)).Nodup) :
    SizesOK ext fuel (chainTree (.leaf a.sem) ((b :: interleave A B).map DTensor.sem)) := by
  have bound : ∀ {T : Ten Key K} {a b : Key} {s : List Key}, s.length ≤ n → T.OK → (∀ k ∈ T.inds, k = a ∨ k = b ∨ k ∈ s) →
      ((T.inds.map ext).prod : Int) ≤ offMax ∧ (T.inds.map ext).prod < fuel := by
    intro T a b s hs hT h
    have : (T.inds.map ext).prod ≤ d ^ (n + 2) := inds_le hd hext hT.nodup (L := a :: b :: s) (by
      intro k hk; simpa using h k hk) (by simpa using hs)
    exact ⟨le_trans (by exact_mod_cast this) hmax, by omega⟩
  have bound0 : ∀ {T : Ten Key K} {s : List Key}, s.length ≤ n → T.OK → (∀ k ∈ T.inds, k ∈ s) →
      ((T.inds.map ext).prod : Int) ≤ offMax ∧ (T.inds.map ext).prod < fuel := by
    intro T s hs hT h
    have : (T.inds.map ext).prod ≤ d ^ (n + 2) := inds_le hd hext hT.nodup (L := s) h (by omega)
    exact ⟨le_trans (by exact_mod_cast this) hmax, by omega⟩
  have okA : ∀ T ∈ (a :: A).map DTensor.sem, T.OK := by
    intro T hT
    obtain ⟨U, hU, rfl⟩ := List.mem_map.1 hT
    exact DTensor.sem_ok (hA.ok U hU)
  have okB : ∀ T ∈ (b :: B).map DTensor.sem, T.OK := by
    intro T hT
    obtain ⟨U, hU, rfl⟩ := List.mem_map.1 hT
    exact DTensor.sem_ok (hB.ok U hU)
  have sA := hA.sem_shape
  have sB := hB.sem_shape
  rw [List.map_cons, interleave_map]
  rw [List.map_cons] at okA okB
  rw [List.map_cons] at sA sB
  clear hA hB
  generalize a.sem = a at *
  generalize b.sem = b at *
  generalize A.map DTensor.sem = A at *
  generalize B.map DTensor.sem = B at *
  have oka := okA a (by simp)
  have okb := okB b (by simp)
  have okab := mul_ok ext oka okb
  rcases S with _ | ⟨s, ss⟩
  · rcases A with _ | ⟨a', A⟩ <;> simp [Shape] at sA
  have hsn := hS s (by simp)
  rw [List.flatten_cons, List.append_assoc, List.nodup_append] at hnd
  obtain ⟨_, hnd, hsd⟩ := hnd
  rcases A with _ | ⟨a', A⟩
  · rcases ss with _ | ⟨s', ss⟩
    swap
    · simp [Shape] at sA
    rcases l with _ | ⟨l, ls⟩
    swap
    · simp [Shape] at sA
    rcases B with _ | ⟨b', B⟩
    swap
    · rcases m with _ | ⟨m, ms⟩
      · simp [Shape] at sB
      · rcases B with _ | ⟨b'', B⟩ <;> simp [Shape] at sB
    rcases m with _ | ⟨m, ms⟩
    swap
    · simp [Shape] at sB
    simp only [List.map_cons, List.map_nil, Shape, reduceCtorEq, or_false] at sA sB
    simp only [interleave, chainTree, SizesOK]
    refine ⟨bound0 hsn oka fun k hk => (sA k).1 hk, bound0 hsn okb
      fun k hk => (sB k).1 hk, bound0 hsn okab fun k hk => ?_⟩
    simp only [PTree.eval] at hk
    rw [Net.mul_mem, sA, sB] at hk
    grind
  · rcases l with _ | ⟨l, ls⟩
    · simp [Shape] at sA
    rcases B with _ | ⟨b', B⟩
    · rcases ss with _ | ⟨s', ss⟩
      · simp [Shape] at sA
      · simp [Shape] at sB
    rcases m with _ | ⟨m, ms⟩
    · simp [Shape] at sB
    simp only [List.map_cons, Shape, reduceCtorEq, false_or] at sA sB
    obtain ⟨sA, sA'⟩ := sA
    obtain ⟨sB, sB'⟩ := sB
    have hsl : ∀ k ∈ s, k ≠ l ∧ k ≠ m := fun k hk => ⟨hsd k hk l (by simp), hsd k hk m (by simp)⟩
    rw [List.nodup_append] at hnd
    obtain ⟨n1, n2, n3⟩ := hnd
    rw [List.nodup_append] at n2
    obtain ⟨n4, n5, n6⟩ := n2
    have hlm : l ≠ m := n6 l (by simp) m (by simp)
    have memab : ∀ k, k ∈ (mul ext a b).inds ↔ k = l ∨ k = m := by
      intro k
      have := hsl k
      rw [Net.mul_mem, sA, sB]
      grind
    rw [chainTree]
    refine sizes2n hd hext hmax hfuel (a' :: A) (b' :: B) l m ss ls ms _ (fun x hx => hS x (by simp [hx])) (by simpa [Shape] using sA')
      (by simpa [Shape] using sB')
      (fun T hT => okA T (by simp at hT ⊢; tauto)) (fun T hT => okB T (by simp at hT ⊢; tauto)) okab memab ?_ ?_
    · refine List.nodup_cons.2 ⟨?_, List.nodup_cons.2 ⟨?_, ?_⟩⟩
      · simp only [List.mem_cons, List.mem_append, not_or]
        exact ⟨hlm, fun h => n3 l h l (by simp) rfl, (List.nodup_cons.1 n4).1, fun h => n6 l (by simp) l (by simp [h]) rfl⟩
      · simp only [List.mem_append, not_or]
        exact ⟨fun h => n3 m h m (by simp) rfl, fun h => n6 m (by simp [h]) m (by simp) rfl, (List.nodup_cons.1 n5).1⟩
      · rw [List.nodup_append, List.nodup_append]
        refine ⟨n1, ⟨(List.nodup_cons.1 n4).2, (List.nodup_cons.1 n5).2, fun x hx y hy => n6 x (by simp [hx]) y (by simp [hy])⟩, ?_⟩
        intro x hx y hy
        refine n3 x hx y ?_
        simp only [List.mem_append, List.mem_cons] at hy ⊢
        tauto
    · simp only [SizesOK]
      exact ⟨bound (a := l) (b := l) hsn oka fun k hk => by have := (sA k).1 hk; tauto,
        bound (a := m) (b := m) hsn okb fun k hk => by have := (sB k).1 hk; tauto,
        bound (a := l) (b := m) (s := []) (by simp) okab fun k hk => by have := (memab k).1 hk; tauto⟩

/-! ## Matching the sites -/

omit [CommRing K] [DecidableEq K] in
theorem Shape.congr {left : Option Key} {M S S' : List (List Key)} {l : List Key} (h : Shape left M S l)
    (hS : List.Forall₂ (fun s s' : List Key => ∀ k, k ∈ s ↔ k ∈ s') S S') : Shape left M S' l := by
  revert S'
  refine Shape.chain (motive := fun left M S l => ∀ {S' : List (List Key)}, List.Forall₂ (fun s s' : List Key => ∀ k, k ∈ s ↔ k ∈ s') S S' →
    Shape left M S' l) ?_ ?_ M left S l h
  · intro left T S hT S' hS
    cases hS with
    | cons h1 h2 => cases h2; exact fun k => (hT k).trans (by rw [h1])
  · intro left T U Ts S Ss l ls hT _ ih S' hS
    cases hS with
    | cons h1 h2 => exact ⟨fun k => (hT k).trans (by rw [h1]), ih h2⟩

omit [CommRing K] [DecidableEq K] in
theorem pairs_swap : ∀ (t u : List Key), List.Forall₂ (fun s s' : List Key => ∀ k, k ∈ s ↔ k ∈ s') (pairs t u) (pairs u t)
  | [], [] => .nil
  | [], _ :: _ => .nil
  | _ :: _, [] => .nil
  | a :: t, b :: u => .cons (fun k => by simp [or_comm]) (pairs_swap t u)

theorem IsMPO.swap {ext : Key → Nat} {A : List (DTensor K)} {t u l : List Key} (h : IsMPO ext A t u l) (hl : t.length = u.length) :
    IsMPO ext A u t l := by
  refine ⟨h.shape.congr (pairs_swap t u), ?_, h.ok, h.plain⟩
  have hp : ((pairs u t).flatten ++ l).Perm ((pairs t u).flatten ++ l) :=
    (((pairs_perm hl.symm).trans List.perm_append_comm).trans (pairs_perm hl).symm).append_right l
  exact hp.nodup_iff.2 h.nodup

omit [CommRing K] [DecidableEq K] in
theorem pick_pairs : ∀ {t u : List Key} {O : List IndexSet}, t.length = u.length → O.length = t.length →
    (∀ n (h : n < t.length) (h' : n < O.length), t[n] ∉ keys O[n]) → (∀ n (h : n < u.length) (h' : n < O.length), u[n] ∈ keys O[n]) →
    Pick (pairs t u) O t
  | [], [], _, _, _, _, _ => trivial
  | [], _ :: _, _, h, _, _, _ => by simp at h
  | _ :: _, [], _, h, _, _, _ => by simp at h
  | _ :: _, _ :: _, [], _, h, _, _ => by simp at h
  | a :: t, b :: u, o :: O, h1, h2, h3, h4 => by
    have e1 : a ∉ keys o := h3 0 (by simp) (by simp)
    have e2 : b ∈ keys o := h4 0 (by simp) (by simp)
    refine ⟨fun k => ?_, ?_⟩
    · simp only [List.mem_cons, List.not_mem_nil, or_false, List.headD_cons]
      constructor
      · rintro ⟨rfl | rfl, h⟩
        · rfl
        · exact absurd e2 h
      · rintro rfl; exact ⟨Or.inl rfl, e1⟩
    · exact pick_pairs (by simpa using h1) (by simpa using h2)
        (fun n h h' => h3 (n + 1) (by simpa using h) (by simpa using h')) (fun n h h' => h4 (n + 1) (by simpa using h) (by simpa using h'))

omit [CommRing K] [DecidableEq K] in
theorem Shape.sites {left : Option Key} {M S : List (List Key)} {l : List Key} (h : Shape left M S l) :
    ∀ n (h : n < M.length) (h' : n < S.length), ∀ k ∈ S[n], k ∈ M[n] := by
  refine Shape.chain (motive := fun left M S l => ∀ n (h : n < M.length) (h' : n < S.length), ∀ k ∈ S[n], k ∈ M[n]) ?_ ?_ M left S l h
  · intro left T S hT n h h' k hk
    have : n = 0 := by simp at h; omega
    subst this
    exact (hT k).2 (Or.inl hk)
  · intro left T U Ts S Ss l ls hT _ ih n h h' k hk
    rcases n with _ | n
    · exact (hT k).2 (Or.inl hk)
    · exact ih n (by simpa using h) (by simpa using h') k hk

omit [CommRing K] [DecidableEq K] in
theorem pairs_length {t u : List Key} (h : t.length = u.length) : (pairs t u).length = t.length := by simp [pairs, h]

omit [CommRing K] [DecidableEq K] in
theorem pairs_get {t u : List Key} {n : Nat} (h : n < (pairs t u).length) (h1 : n < t.length) (h2 : n < u.length) :
    (pairs t u)[n] = [t[n], u[n]] := by simp [pairs]

theorem IsMPO.length {ext : Key → Nat} {A : List (DTensor K)} {t u l : List Key} (h : IsMPO ext A t u l) (hl : t.length = u.length) :
    A.length = t.length := by
  have := h.shape.length
  rw [pairs_length hl] at this
  simpa using this

theorem IsMPO.nodups {ext : Key → Nat} {A : List (DTensor K)} {t u l : List Key} (h : IsMPO ext A t u l) (hl : t.length = u.length) :
    (t ++ u ++ l).Nodup := ((pairs_perm hl).append_right l).nodup_iff.1 h.nodup

theorem IsMPO.names {ext : Key → Nat} {A : List (DTensor K)} {t u l : List Key} (h : IsMPO ext A t u l) (hl : t.length = u.length)
    {T : DTensor K} (hT : T ∈ A) {i : Index} (hi : i ∈ T.is) : i.key ∈ t ∨ i.key ∈ u ∨ i.key ∈ l := by
  have := h.mem_names hT hi
  rw [List.mem_append, (pairs_perm hl).mem_iff, List.mem_append] at this
  tauto

/-- The site indices of the first operator which the second has not. -/
theorem unique_sites {ext : Key → Nat} {A B : List (DTensor K)} {a c b l m : List Key} (hA : IsMPO ext A a c l) (hB : IsMPO ext B c b m)
    (hac : a.length = c.length) (hcb : c.length = b.length) (hdis : ∀ k ∈ a, k ∉ c ++ b ++ m) :
    ∃ sA, siteIndsFrom [] A (B.map (·.is)) = .ok sA ∧ keys sA = a ∧ ∀ i ∈ sA, ∃ T ∈ A, i ∈ T.is := by
  have hlB := hB.length hcb
  refine siteIndsFrom_spec (prev := []) hA.shape hA.nodup (by simp) (by simp [keys]) (fun T hT => (hA.ok T hT).nodup)
    (pick_pairs hac (by simp; omega) ?_ ?_)
  · intro n h h' hm
    rw [List.getElem_map] at hm
    obtain ⟨i, hi, e⟩ := List.mem_map.1 hm
    have := hB.names hcb (List.getElem_mem _) hi
    rw [e] at this
    refine hdis a[n] (List.getElem_mem _) ?_
    simp only [List.mem_append]; tauto
  · intro n h h'
    have hp : n < (pairs c b).length := by rw [pairs_length hcb]; exact h
    have := hB.shape.sites n (by simpa using h') hp c[n] (by rw [pairs_get hp h (by omega)]; simp)
    simpa using this

/-- `Bp`: the other site indices of `B` are renamed to those of `A`, and its links are new. -/
theorem matchedB_spec {ext : Key → Nat} {A B : List (DTensor K)} {a c b l m : List Key} (hA : IsMPO ext A a c l) (hB : IsMPO ext B c b m)
    (hac : a.length = c.length) (hcb : c.length = b.length) (hne : c ≠ []) (hda : ∀ k ∈ a, k ∉ c ++ b ++ m) (hdb : ∀ k ∈ b, k ∉ a ++ c ++ l)
    (hdim : a.map ext = b.map ext) {newid : Key → Nat} {ren : Key → Key} (hb : b.map ren = a) (hc : ∀ k ∈ c, ren k = k)
    (hm : ∀ k ∈ m, ren k = simKey newid k) (h0 : ∀ k ∈ m, newid k ≠ 0) (hnd : (m.map ren).Nodup) :
    ∃ p, matchedB newid A B = .ok p ∧ List.Forall₂ (Renamed ren id) B p := by
  obtain ⟨sA, e1, k1, m1⟩ := unique_sites hA hB hac hcb hda
  obtain ⟨sB, e2, k2, m2⟩ := unique_sites (hB.swap hcb) (hA.swap hac) hcb.symm hac.symm fun k hk h => hdb k hk (by
    simp only [List.mem_append] at h ⊢; tauto)
  have hlA := hA.length hac
  have hlB := hB.length hcb
  have nA := hA.nodups hac
  have nB := hB.nodups hcb
  have hsA : sA.length = a.length := by rw [← k1]; simp [keys]
  have hsB : sB.length = b.length := by rw [← k2]; simp [keys]
  unfold matchedB
  rw [e1]
  simp only [Res.bind]
  rw [e2]
  simp only [Res.bind]
  unfold replaceSiteIndsMPO
  rw [if_neg (by omega)]
  have hmiss : ∀ T ∈ B, ∀ k ∈ a, k ∉ keys T.is := by
    intro T hT k hk h
    obtain ⟨i, hi, rfl⟩ := List.mem_map.1 h
    have := hB.names hcb hT hi
    exact hda _ hk (by simp only [List.mem_append]; tauto)
  have hall : ¬ ((B.zip sA).all fun q => hasIndex q.1.is q.2) = true := by
    intro h
    rw [List.all_eq_true] at h
    rcases B with _ | ⟨T, B⟩
    · simp at hlB; exact hne (by simpa using hlB.symm)
    rcases sA with _ | ⟨i, sA⟩
    · simp at hsA hlB; omega
    have := h (T, i) (by simp)
    rw [hasIndex_iff] at this
    exact hmiss T (by simp) i.key (by rw [← k1]; simp [keys]) this
  rw [if_neg hall]
  -- the sites
  let ren1 : Key → Key := fun k => if k ∈ b then ren k else k
  have hr1 : b.map ren1 = a := by
    rw [← hb]; exact List.map_congr_left fun k hk => if_pos hk
  obtain ⟨P, eP, hP⟩ := replaceSites_spec (ren := ren1) (ext := ext) B sB sA (by omega)
    (match_of (by rw [k1, k2, hr1]) (by
      rw [k2, ← hdim, ← k1, keys, List.map_map]
      refine List.map_congr_left fun i hi => ?_
      obtain ⟨T, hT, hiT⟩ := m1 i hi
      exact (hA.ok T hT).dims i hiT)
      (fun i hi => by obtain ⟨T, hT, hiT⟩ := m2 i hi; exact (hB.plain T hT i hiT).id)
      (fun i hi => by obtain ⟨T, hT, hiT⟩ := m1 i hi; exact hA.plain T hT i hiT))
    (fun T hT => ⟨hB.ok T hT, hB.plain T hT⟩) (by
      intro n hn hn' k hk hkne
      show (if k ∈ b then ren k else k) = k
      rw [if_neg]
      intro hkb
      obtain ⟨q1, q2, q3⟩ := hB.shape.names
      have hpl : n < (pairs c b).length := by rw [pairs_length hcb]; omega
      have hnb : n < b.length := by omega
      have hks : sB[n].key = b[n] := by
        have := congrArg (fun y => y[n]?) k2
        simp [keys, hn', hnb] at this
        exact this
      have ncb : ∀ x ∈ c, x ∉ b := fun x hx hx' => (List.nodup_append.1 (List.nodup_append.1 nB).1).2.2 x hx x hx' rfl
      have nbm : ∀ x ∈ b, x ∉ m := fun x hx hx' => (List.nodup_append.1 nB).2.2 x (by simp [hx]) x hx' rfl
      rcases q3 n (by simpa using hn) hpl k (by simpa using hk) with h | h | h
      · rw [pairs_get hpl (by omega) hnb] at h
        simp only [List.mem_cons, List.not_mem_nil, or_false] at h
        rcases h with h | h
        · exact ncb c[n] (List.getElem_mem _) (by rw [← h]; exact hkb)
        · exact hkne (h.trans hks.symm)
      · exact nbm k hkb h
      · cases h)
  rw [eP]
  simp only [Res.bind]
  -- the renamed operator
  have hcr1 : ∀ k ∈ c, ren1 k = k := by
    intro k hk
    show (if k ∈ b then ren k else k) = k
    split
    · exact hc k hk
    · rfl
  have hmr1 : ∀ k ∈ m, ren1 k = k := by
    intro k hk
    show (if k ∈ b then ren k else k) = k
    rw [if_neg]
    intro h
    exact (List.nodup_append.1 nB).2.2 k (by simp [h]) k hk rfl
  have hSr : (pairs c b).map (·.map ren1) = pairs c a := by
    rw [← hr1]
    conv_rhs => rw [← (List.map_id c)]
    rw [← List.map_congr_left (f := ren1) (g := id) hcr1]
    simp [pairs, List.zip_map, Function.comp_def]
  have hmm : m.map ren1 = m := by
    conv_rhs => rw [← List.map_id m]
    exact List.map_congr_left hmr1
  have hPc : IsMPO ext P c a m := by
    have := hB.renamed hP (by
      rw [hSr, hmm]
      refine ((pairs_perm hac.symm).append_right m).nodup_iff.2 ?_
      rw [List.nodup_append, List.nodup_append]
      have n1 := List.nodup_append.1 nB
      have n2 := List.nodup_append.1 n1.1
      have n3 := List.nodup_append.1 (List.nodup_append.1 nA).1
      refine ⟨⟨n2.1, n3.1, fun x hx y hy e => n3.2.2 y hy x hx e.symm⟩, n1.2.1, fun x hx y hy e => ?_⟩
      subst e
      rcases List.mem_append.1 hx with h | h
      · exact n1.2.2 x (by simp [h]) x hy rfl
      · exact hda x h (by simp [hy])) (by
      intro k hk
      rw [List.mem_append, (pairs_perm hcb).mem_iff, List.mem_append] at hk
      rcases hk with (h | h) | h
      · rw [hcr1 k h]
      · have e : b.map (fun k => ext (ren1 k)) = b.map ext := by
          rw [← hdim, ← hr1, List.map_map]; rfl
        exact List.map_inj_left.1 e k h
      · rw [hmr1 k h])
    rwa [hSr, hmm] at this
  let ren2 : Key → Key := fun k => if k ∈ m then ren k else k
  have ham : ∀ k ∈ a, k ∉ m := fun k hk h => hda k hk (by simp [h])
  have hcm : ∀ k ∈ c, k ∉ m := fun k hk h => (List.nodup_append.1 nB).2.2 k (by simp [hk]) k h rfl
  obtain ⟨Q, eQ, hQ⟩ := freshLinks_spec (ren := ren2) (newid := newid) hPc
    (by
      intro k hk
      rw [(pairs_perm hac.symm).mem_iff, List.mem_append] at hk
      show (if k ∈ m then ren k else k) = k
      rw [if_neg]
      rcases hk with h | h
      · exact hcm k h
      · exact ham k h)
    (fun k hk => by show (if k ∈ m then ren k else k) = _; rw [if_pos hk, hm k hk]) h0
    (by rw [List.map_congr_left (g := ren) fun k hk => if_pos hk]; exact hnd)
  refine ⟨Q, eQ, ?_⟩
  refine forall₂_imp_mem (forall₂_trans (R := Renamed ren1 id) (Q := Renamed ren2 id) (fun T U V h h' => Renamed.trans h h') hP hQ) fun T hT V h => ?_
  refine Renamed.congr h fun i hi => ?_
  have := hB.names hcb hT hi
  show ren2 (ren1 i.key) = ren i.key
  rcases this with h | h | h
  · rw [hcr1 _ h, hc _ h]
    show (if _ ∈ m then _ else _) = _
    rw [if_neg (hcm _ h)]
  · have e : ren1 i.key = ren i.key := if_pos h
    have ha : ren i.key ∈ a := by rw [← hb]; exact List.mem_map_of_mem h
    rw [e]
    show (if _ ∈ m then _ else _) = _
    rw [if_neg (ham _ ha)]
  · rw [hmr1 _ h]; exact if_pos h

omit [CommRing K] [DecidableEq K] in
theorem map_append_split {α β : Type*} {f : α → β} {a b : List α} {c d : List β} (h : (a ++ b).map f = c ++ d) (hl : a.length = c.length) :
    a.map f = c ∧ b.map f = d := by
  rw [List.map_append] at h
  exact List.append_inj h (by simpa using hl)

/-- C102: `traceC(A,B)` is the trace of the product of the two operators, if the site indices of `B` on one side are those of `A`
on the other side, and the remaining ones are others. Every intermediate tensor has at most `d ^ 4` elements. -/
theorem C102_trace_product_partial {ext : Key → Nat} {A B : List (DTensor K)} {a c b l m : List Key} (hA : IsMPO ext A a c l)
    (hB : IsMPO ext B c b m) (hac : a.length = c.length) (hdim : a.map ext = b.map ext) (hda : ∀ k ∈ a, k ∉ c ++ b ++ m)
    (hdb : ∀ k ∈ b, k ∉ a ++ c ++ l) {newid : Key → Nat} (hf : Fresh ext newid m (a ++ c ++ l)) {d fuel : Nat} (hd : 1 ≤ d)
    (hext : ∀ k, ext k ≤ d) (hmax : ((d ^ 4 : Nat) : Int) ≤ offMax) (hfuel : d ^ 4 < fuel) (junk fresh : Int → K) :
    traceAB fuel junk fresh newid A B = some (.ok (sumVals (a.map ext) fun v => sumVals (c.map ext) fun w =>
      amp ext A l (assign (assign 0 a v) c w) * amp ext B m (assign (assign 0 b v) c w))) := by
  have hab : a.length = b.length := by simpa using congrArg List.length hdim
  have hcb : c.length = b.length := by omega
  have nA := hA.nodups hac
  have nB := hB.nodups hcb
  have hlA := hA.length hac
  have hlB := hB.length hcb
  rcases A with _ | ⟨x, A⟩
  · exact absurd hA.shape (by simp [Shape])
  have hne : c ≠ [] := by rintro rfl; simp at hac hlA; subst hac; simp at hlA
  have n1 := List.nodup_append.1 nB
  have n2 := List.nodup_append.1 n1.1
  have n3 := List.nodup_append.1 nA
  have n4 := List.nodup_append.1 n3.1
  have hbc : (b ++ c).Nodup := List.nodup_append.2 ⟨n2.2.1, n2.1, fun p hp q hq e => n2.2.2 q hq p hp e.symm⟩
  obtain ⟨ren, hs, hren⟩ := exists_ren (s := b ++ c) (s' := a ++ c) (simKey newid) hbc (by simp; omega)
  obtain ⟨hrb, hrc'⟩ := map_append_split hs hab.symm
  have hrc : ∀ k ∈ c, ren k = k := by
    have : c.map ren = c.map id := by rw [hrc', List.map_id]
    exact List.map_inj_left.1 this
  have hmbc : ∀ k ∈ m, k ∉ b ++ c := fun k hk h => n1.2.2 k (by
    simp only [List.mem_append] at h ⊢; tauto) k hk rfl
  have hrm : ∀ k ∈ m, ren k = simKey newid k := fun k hk => hren k (hmbc k hk)
  have hmn : (m.map ren).Nodup := by rw [List.map_congr_left hrm]; exact hf.nodup
  have hmu : ∀ k ∈ m.map ren, k ∉ a ++ c ++ l := by
    intro k hk
    obtain ⟨k', hk', rfl⟩ := List.mem_map.1 hk
    rw [hrm k' hk']; exact hf.unused k' hk'
  obtain ⟨p, hp, hrp⟩ := matchedB_spec hA hB hac hcb hne hda hdb hdim hrb hrc hrm hf.ne_zero hmn
  have hSr : (pairs c b).map (·.map ren) = pairs c a := by
    rw [← hrb]
    conv_rhs => rw [← hrc']
    simp [pairs, List.zip_map, Function.comp_def]
  have hinj : (((pairs c b).flatten ++ m).map ren).Nodup := by
    refine (((pairs_perm hcb).append_right m).map ren).nodup_iff.2 ?_
    rw [List.map_append, List.map_append, hrc', hrb, List.nodup_append, List.nodup_append]
    exact ⟨⟨n4.2.1, n4.1, fun x hx y hy e => n4.2.2 y hy x hx e.symm⟩, hmn, fun x hx y hy e => hmu y hy (by
      rw [← e]; simp only [List.mem_append] at hx ⊢; tauto)⟩
  have he : ∀ k ∈ (pairs c b).flatten ++ m, ext (ren k) = ext k := by
    intro k hk
    rw [List.mem_append, (pairs_perm hcb).mem_iff, List.mem_append] at hk
    rcases hk with (h | h) | h
    · rw [hrc k h]
    · have e : b.map (fun k => ext (ren k)) = b.map ext := by rw [← hdim, ← hrb, List.map_map]; rfl
      exact List.map_inj_left.1 e k h
    · rw [hrm k h]; exact hf.ext_eq k h
  have hpm : IsMPO ext p a c (m.map ren) := by
    have := hB.renamed hrp (by
      rw [hSr]
      rw [List.map_append, List.map_flatten, hSr] at hinj
      exact hinj) he
    rw [hSr] at this
    exact IsMPO.swap this hac.symm
  have hlp : B.length = p.length := hrp.length_eq
  have hnd2 : ((pairs a c).flatten ++ (l ++ m.map ren)).Nodup := by
    refine ((pairs_perm hac).append_right _).nodup_iff.2 ?_
    rw [List.nodup_append, List.nodup_append (l₁ := l)]
    refine ⟨n3.1, ⟨n3.2.1, hmn, fun x hx y hy e => hmu y hy (by rw [← e]; simp [hx])⟩, fun x hx y hy e => ?_⟩
    subst e
    rcases List.mem_append.1 hy with h | h
    · exact n3.2.2 x hx x h rfl
    · exact hmu x h (by simp only [List.mem_append] at hx ⊢; tauto)
  have hnd3 : (a ++ c ++ (l ++ m.map ren)).Nodup := ((pairs_perm hac).append_right _).nodup_iff.1 hnd2
  rcases p with _ | ⟨y, P⟩
  · exact absurd hpm.shape (by simp [Shape])
  have hAB : A.length = P.length := by simp only [List.length_cons] at hlA hlp; omega
  have hfl : x :: ([y] ++ ((A.zip P).map fun q => [q.1, q.2]).flatten) = interleave (x :: A) (y :: P) := by
    rw [zip_flatten]; rfl
  have hperm : (interleave (x :: A) (y :: P)).Perm ((x :: A) ++ (y :: P)) := interleave_perm (by simpa using hAB)
  have hocc : ∀ k, occ k ((x :: ([y] ++ ((A.zip P).map fun q => [q.1, q.2]).flatten)).map DTensor.sem) =
      ((if k ∈ a ++ c then 1 else 0) + (if k ∈ l then 2 else 0)) + ((if k ∈ a ++ c then 1 else 0) + (if k ∈ m.map ren then 2 else 0)) := by
    intro k
    have h1 := hA.occ k
    have h2 := hpm.occ k
    simp only [(pairs_perm hac).mem_iff] at h1 h2
    rw [hfl, ← h1, ← h2, ← occ_append, ← List.map_append]
    exact (hperm.map _).countP_eq _
  have hx1 : ∀ k, k ∈ a ++ c → k ∉ l := fun k h h' => n3.2.2 k h k h' rfl
  have hx2 : ∀ k, k ∈ m.map ren → k ∉ a ++ c ∧ k ∉ l := fun k hk => by
    have := hmu k hk
    simpa only [List.mem_append, not_or] using this
  rw [traceAB, if_neg (by simp only [ne_eq, not_not]; omega), hp]
  simp only [List.zip_cons_cons, List.map_cons]
  rw [sandwich_spec (ext := ext) junk fresh (D := a ++ c ++ (l ++ m.map ren)) (σ := 0)]
  · congr 2
    rw [hfl]
    have hprod : ∀ τ : Key → Nat, ((interleave (x :: A) (y :: P)).map fun U => U.sem.val τ).prod =
        ((x :: A).map fun U => U.sem.val τ).prod * ((y :: P).map fun U => U.sem.val τ).prod := by
      intro τ
      rw [← List.prod_append, ← List.map_append]
      exact (hperm.map _).prod_eq
    simp only [hprod]
    rw [sumOver_append]
    have hin : ∀ τ, sumOver ext (l ++ m.map ren) (fun τ => ((x :: A).map fun U => U.sem.val τ).prod *
        ((y :: P).map fun U => U.sem.val τ).prod) τ = amp ext (x :: A) l τ * amp ext (y :: P) (m.map ren) τ := by
      intro τ
      rw [sumOver_append]
      have e1 : sumOver ext (m.map ren) (fun τ => ((x :: A).map fun U => U.sem.val τ).prod * ((y :: P).map fun U => U.sem.val τ).prod) =
          fun τ => ((x :: A).map fun U => U.sem.val τ).prod * amp ext (y :: P) (m.map ren) τ := by
        funext τ
        refine sumOver_mul_left ext (m.map ren) τ (hA.prod_dep.mono fun k hk hk' => ?_)
        rw [List.mem_append, (pairs_perm hac).mem_iff] at hk
        have := hx2 k hk'
        tauto
      rw [e1]
      refine sumOver_mul_right ext l τ (hpm.amp_dep.mono fun k hk hk' => ?_)
      rw [(pairs_perm hac).mem_iff] at hk
      exact hx1 k hk hk'
    rw [funext hin, sumOver_append, sumOver_vals]
    refine sumVals_congr fun v hv => ?_
    rw [sumOver_vals]
    refine sumVals_congr fun w hw => ?_
    congr 1
    refine amp_renamed (conj := RingHom.id K) hB hrp hinj he _ _ ?_
    have hlv : v.length = a.length := by simpa using hv
    have hlw : w.length = c.length := by simpa using hw
    intro k hk
    rw [List.mem_append, (pairs_perm hcb).mem_iff, List.mem_append] at hk
    rcases hk with (hk | hk) | hk
    · obtain ⟨n, hn, rfl⟩ := List.getElem_of_mem hk
      rw [hrc _ hk, assign_getElem n4.2.1 n hn (by omega), assign_getElem n4.2.1 n hn (by omega)]
    · obtain ⟨n, hn, rfl⟩ := List.getElem_of_mem hk
      have hna : n < a.length := by omega
      have : ren b[n] = a[n] := by simp only [← hrb, List.getElem_map]
      rw [this, assign_not_mem fun h => n4.2.2 _ (List.getElem_mem _) _ h rfl, assign_getElem n4.1 n hna (by omega),
        assign_not_mem fun h => n2.2.2 _ h _ hk rfl, assign_getElem n2.2.1 n hn (by omega)]
    · have hkm : ren k ∈ m.map ren := List.mem_map_of_mem hk
      have h1 := (hx2 _ hkm).1
      have h2 := hmbc k hk
      simp only [List.mem_append, not_or] at h1 h2
      rw [assign_not_mem h1.2, assign_not_mem h1.1, assign_not_mem h2.2, assign_not_mem h2.1]
      rfl
  · rw [hfl]
    intro U hU
    have := hperm.mem_iff.1 hU
    rcases List.mem_append.1 this with h | h
    · exact hA.ok U h
    · exact hpm.ok U h
  · rw [zip_flatten]
    refine sizes_pair (n := 2) hd hext hmax hfuel (S := pairs a c) (fun s hs => ?_) hA hpm hnd2
    simp only [pairs, List.mem_map] at hs
    obtain ⟨q, _, rfl⟩ := hs
    simp
  · intro k
    rw [hocc]
    have := hx1 k
    have := hx2 k
    grind
  · exact hnd3
  · intro k
    rw [hocc, List.mem_append, List.mem_append (s := l)]
    have := hx1 k
    have := hx2 k
    grind

/-- C102: operators of different lengths are rejected. -/
theorem C102_trace_product_length (fuel : Nat) (junk fresh : Int → K) (newid : Key → Nat) {A B : List (DTensor K)}
    (h : A.length ≠ B.length) : traceAB fuel junk fresh newid A B = some .throw := by
  rw [traceAB, if_pos h]

end Verif.MPS
