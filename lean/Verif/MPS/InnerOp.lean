import Verif.MPS.InnerMain

/-! # Matrix elements of operators: `inner(MPS,MPO,MPS)` -/

namespace Verif.MPS

open Verif.Tensor Verif.Index Verif.Index.IndexSet Verif.Net Finset

variable {K : Type*} [CommRing K] [DecidableEq K]

/-- The tensors in the order of multiplication. -/
def interleave3 {T : Type*} : List T → List T → List T → List T
  | a :: A, b :: B, c :: C => a :: b :: c :: interleave3 A B C
  | _, _, _ => []

theorem interleave3_perm {T : Type*} : ∀ {A B C : List T}, A.length = B.length → B.length = C.length →
    (interleave3 A B C).Perm (A ++ (B ++ C)) := by
  intro A
  induction A with
  | nil =>
    intro B C h h'
    rcases B with _ | ⟨b, B⟩ <;> rcases C with _ | ⟨c, C⟩ <;> simp [interleave3] at h h' ⊢
  | cons a A ih =>
    intro B C h h'
    rcases B with _ | ⟨b, B⟩
    · simp at h
    rcases C with _ | ⟨c, C⟩
    · simp at h'
    simp only [interleave3, List.cons_append]
    refine List.Perm.cons a ?_
    have h1 := (ih (by simpa using h) (by simpa using h')).cons c
    have h2 : (c :: (A ++ (B ++ C))).Perm (A ++ (B ++ c :: C)) := by
      rw [← List.append_assoc, ← List.append_assoc]; exact List.perm_middle.symm
    exact ((h1.trans h2).cons b).trans List.perm_middle.symm

theorem zip3_flatten {T : Type*} : ∀ {A B C : List T}, ((A.zip (B.zip C)).map fun q => [q.1, q.2.1, q.2.2]).flatten =
    interleave3 A B C := by
  intro A
  induction A with
  | nil => intro B C; rfl
  | cons a A ih =>
    intro B C
    rcases B with _ | ⟨b, B⟩
    · rfl
    rcases C with _ | ⟨c, C⟩
    · rfl
    simp [interleave3, ih]

theorem interleave3_map {S T : Type*} (f : S → T) : ∀ {A B C : List S}, (interleave3 A B C).map f =
    interleave3 (A.map f) (B.map f) (C.map f) := by
  intro A
  induction A with
  | nil => intro B C; rfl
  | cons a A ih =>
    intro B C
    rcases B with _ | ⟨b, B⟩
    · rfl
    rcases C with _ | ⟨c, C⟩
    · rfl
    simp [interleave3, ih]

/-- The pairs of site indices of an operator. -/
def pairs (t u : List Key) : List (List Key) := (t.zip u).map fun q => [q.1, q.2]

/-- A matrix product operator with site indices `t` and `u`. -/
abbrev IsMPO (ext : Key → Nat) (A : List (DTensor K)) (t u l : List Key) : Prop := IsChain ext A (pairs t u) l

theorem pairs_perm {t u : List Key} (h : t.length = u.length) : (pairs t u).flatten.Perm (t ++ u) := by
  unfold pairs; rw [zip_flatten]; exact interleave_perm h

theorem Shape.one {left : Option Key} {M : List (List Key)} {S : List Key} {l : List Key} (h : Shape left M [S] l) :
    ∃ T, M = [T] ∧ l = [] ∧ ∀ k, k ∈ T ↔ k ∈ S ∨ left = some k := by
  rcases M with _ | ⟨T, _ | ⟨U, M⟩⟩
  · simp [Shape] at h
  · rcases l with _ | ⟨l, ls⟩
    · exact ⟨T, rfl, rfl, h⟩
    · simp [Shape] at h
  · rcases l with _ | ⟨l, ls⟩
    · simp [Shape] at h
    · rcases M with _ | ⟨_, M⟩ <;> simp [Shape] at h

theorem Shape.more {left : Option Key} {M : List (List Key)} {S S' : List Key} {Ss : List (List Key)} {l : List Key}
    (h : Shape left M (S :: S' :: Ss) l) :
    ∃ T Ts l0 ls, M = T :: Ts ∧ l = l0 :: ls ∧ (∀ k, k ∈ T ↔ k ∈ S ∨ left = some k ∨ k = l0) ∧
      Shape (some l0) Ts (S' :: Ss) ls := by
  rcases M with _ | ⟨T, _ | ⟨U, M⟩⟩
  · simp [Shape] at h
  · simp [Shape] at h
  · rcases l with _ | ⟨l, ls⟩
    · simp [Shape] at h
    · exact ⟨T, U :: M, l, ls, rfl, rfl, h.1, h.2⟩

theorem map_eq_cons' {S T : Type*} {f : S → T} {A : List S} {y : T} {ys : List T} (h : A.map f = y :: ys) :
    ∃ a A', A = a :: A' ∧ f a = y ∧ A'.map f = ys := by
  rcases A with _ | ⟨a, A⟩
  · simp at h
  · simp only [List.map_cons, List.cons.injEq] at h
    exact ⟨a, A, rfl, h.1, h.2⟩

theorem step1 {X : Type*} {x y z u l k : X} (h : [x, y, z, u, l].Nodup) :
    ((k = x ∨ k = y ∨ k = z) ∧ ¬ (k = u ∨ x = k ∨ k = l) ∨ (k = u ∨ x = k ∨ k = l) ∧ ¬ (k = x ∨ k = y ∨ k = z)) ↔
      k = y ∨ k = z ∨ k = u ∨ k = l := by
  simp only [List.nodup_cons, List.mem_cons, List.not_mem_nil, or_false, not_or, not_false_eq_true, List.nodup_nil, and_true] at h
  grind

theorem step2 {X : Type*} {y z u l t a k : X} (h : [y, z, u, l, t, a].Nodup) :
    ((k = y ∨ k = z ∨ k = u ∨ k = l) ∧ ¬ ((k = t ∨ k = u) ∨ y = k ∨ k = a) ∨
      ((k = t ∨ k = u) ∨ y = k ∨ k = a) ∧ ¬ (k = y ∨ k = z ∨ k = u ∨ k = l)) ↔
      k = z ∨ k = t ∨ k = l ∨ k = a := by
  simp only [List.nodup_cons, List.mem_cons, List.not_mem_nil, or_false, not_or, not_false_eq_true, List.nodup_nil, and_true] at h
  grind

theorem step3 {X : Type*} {z t l a m k : X} (h : [z, t, l, a, m].Nodup) :
    ((k = z ∨ k = t ∨ k = l ∨ k = a) ∧ ¬ (k = t ∨ z = k ∨ k = m) ∨
      (k = t ∨ z = k ∨ k = m) ∧ ¬ (k = z ∨ k = t ∨ k = l ∨ k = a)) ↔ k = l ∨ k = a ∨ k = m := by
  simp only [List.nodup_cons, List.mem_cons, List.not_mem_nil, or_false, not_or, not_false_eq_true, List.nodup_nil, and_true] at h
  grind

omit [DecidableEq K] in
theorem sizes3 {ext : Key → Nat} {d fuel : Nat} (hd : 1 ≤ d) (hext : ∀ k, ext k ≤ d) (hmax : ((d ^ 4 : Nat) : Int) ≤ offMax)
    (hfuel : d ^ 4 < fuel) : ∀ (u t : List Key) (A B C : List (Ten Key K)) (x y z : Key) (l a m : List Key) (T : PTree (Ten Key K)),
    t.length = u.length →
    Shape (some x) (A.map (·.inds)) (u.map fun k => [k]) l → Shape (some y) (B.map (·.inds)) (pairs t u) a →
    Shape (some z) (C.map (·.inds)) (t.map fun k => [k]) m →
    (∀ T ∈ A, T.OK) → (∀ T ∈ B, T.OK) → (∀ T ∈ C, T.OK) → (T.eval ext).OK →
    (∀ k, k ∈ (T.eval ext).inds ↔ k = x ∨ k = y ∨ k = z) →
    ([x, y, z] ++ (t ++ (u ++ (l ++ (a ++ m))))).Nodup → SizesOK ext fuel T →
    SizesOK ext fuel (chainTree T (interleave3 A B C)) := by
  have bound : ∀ {T : Ten Key K} {a b c e : Key}, T.OK → (∀ k ∈ T.inds, k = a ∨ k = b ∨ k = c ∨ k = e) →
      ((T.inds.map ext).prod : Int) ≤ offMax ∧ (T.inds.map ext).prod < fuel := by
    intro T a b c e hT h
    have : (T.inds.map ext).prod ≤ d ^ 4 := inds_le hd hext hT.nodup (L := [a, b, c, e]) (by
      intro k hk; simpa using h k hk) (by simp)
    exact ⟨le_trans (by exact_mod_cast this) hmax, by omega⟩
  intro u
  induction u with
  | nil => intro t A B C x y z l a m T _ h; rcases A with _ | ⟨_, _ | ⟨_, _⟩⟩ <;> simp [Shape] at h
  | cons u us ih =>
    intro t A B C x y z l a m T hlen hA hB hC okA okB okC okT hT hnd hst
    rcases t with _ | ⟨t, ts⟩
    · simp at hlen
    have hxyz : x ≠ y ∧ x ≠ z ∧ y ≠ z := by
      simp only [List.cons_append, List.nodup_cons, List.mem_cons, not_or] at hnd
      exact ⟨hnd.1.1, hnd.1.2.1, hnd.2.1.1⟩
    have htu : x ≠ t ∧ y ≠ t ∧ z ≠ t ∧ x ≠ u ∧ y ≠ u ∧ z ≠ u ∧ t ≠ u := by
      simp only [List.cons_append, List.nil_append, List.nodup_cons, List.mem_cons, List.mem_append, not_or] at hnd
      tauto
    rcases us with _ | ⟨u', us⟩
    · rcases ts with _ | ⟨t', ts⟩
      swap
      · simp at hlen
      obtain ⟨P0, hA1, rfl, hP⟩ := Shape.one hA
      obtain ⟨Q0, hB1, rfl, hQ⟩ := Shape.one hB
      obtain ⟨R0, hC1, rfl, hR⟩ := Shape.one hC
      obtain ⟨P, A', rfl, rfl, hA'⟩ := map_eq_cons' hA1
      obtain ⟨Q, B', rfl, rfl, hB'⟩ := map_eq_cons' hB1
      obtain ⟨R, C', rfl, rfl, hC'⟩ := map_eq_cons' hC1
      obtain rfl := List.map_eq_nil_iff.1 hA'
      obtain rfl := List.map_eq_nil_iff.1 hB'
      obtain rfl := List.map_eq_nil_iff.1 hC'
      have okP := okA P (by simp)
      have okQ := okB Q (by simp)
      have okR := okC R (by simp)
      have ok1 := mul_ok ext okT okP
      have ok2 := mul_ok ext ok1 okQ
      have ok3 := mul_ok ext ok2 okR
      simp only [List.mem_cons, List.not_mem_nil, or_false, Option.some.injEq] at hP hQ hR
      have m1 : ∀ k, k ∈ (mul ext (T.eval ext) P).inds ↔ k = y ∨ k = z ∨ k = u := by
        intro k; rw [Net.mul_mem, hT, hP]; grind
      have m2 : ∀ k, k ∈ (mul ext (mul ext (T.eval ext) P) Q).inds ↔ k = z ∨ k = t := by
        intro k; rw [Net.mul_mem, m1, hQ]; grind
      have m3 : ∀ k, ¬ k ∈ (mul ext (mul ext (mul ext (T.eval ext) P) Q) R).inds := by
        intro k; rw [Net.mul_mem, m2, hR]; grind
      simp only [interleave3, chainTree, SizesOK]
      exact ⟨⟨⟨hst, bound (a := u) (b := x) (c := x) (e := x) okP fun k hk => by have := (hP k).1 hk; grind,
        bound (a := y) (b := z) (c := u) (e := u) ok1 fun k hk => by have := (m1 k).1 hk; grind⟩,
        bound (a := t) (b := u) (c := y) (e := y) okQ fun k hk => by have := (hQ k).1 hk; grind,
        bound (a := z) (b := t) (c := t) (e := t) ok2 fun k hk => by have := (m2 k).1 hk; grind⟩,
        bound (a := t) (b := z) (c := z) (e := z) okR fun k hk => by have := (hR k).1 hk; grind,
        bound (a := t) (b := z) (c := z) (e := z) ok3 fun k hk => absurd hk (m3 k)⟩
    · rcases ts with _ | ⟨t', ts⟩
      · simp at hlen
      obtain ⟨P0, A0, l0, ls, hA1, rfl, hP, hA2⟩ := Shape.more hA
      obtain ⟨Q0, B0, a0, as, hB1, rfl, hQ, hB2⟩ := Shape.more hB
      obtain ⟨R0, C0, m0, ms, hC1, rfl, hR, hC2⟩ := Shape.more hC
      obtain ⟨P, A', rfl, rfl, rfl⟩ := map_eq_cons' hA1
      obtain ⟨Q, B', rfl, rfl, rfl⟩ := map_eq_cons' hB1
      obtain ⟨R, C', rfl, rfl, rfl⟩ := map_eq_cons' hC1
      have okP := okA P (by simp)
      have okQ := okB Q (by simp)
      have okR := okC R (by simp)
      have ok1 := mul_ok ext okT okP
      have ok2 := mul_ok ext ok1 okQ
      have ok3 := mul_ok ext ok2 okR
      have hsub : ([l0, a0, m0] ++ (t' :: ts ++ (u' :: us ++ (ls ++ (as ++ ms))))).Nodup ∧
          [x, y, z, t, u, l0, a0, m0].Nodup := by
        have hp : ([x, y, z] ++ (t :: t' :: ts ++ (u :: u' :: us ++ (l0 :: ls ++ (a0 :: as ++ m0 :: ms))))).Perm
            ([x, y, z, t, u] ++ ([l0, a0, m0] ++ (t' :: ts ++ (u' :: us ++ (ls ++ (as ++ ms)))))) := by
          rw [List.perm_iff_count]
          intro k
          simp only [List.count_append, List.count_cons, List.count_nil]
          omega
        have h := hp.nodup_iff.1 hnd
        refine ⟨(List.nodup_append.1 h).2.1, ?_⟩
        rw [← List.append_assoc] at h
        exact (List.nodup_append.1 h).1
      obtain ⟨hnd', hne⟩ := hsub
      simp only [List.mem_cons, List.not_mem_nil, or_false, Option.some.injEq] at hP hQ hR
      have m1 : ∀ k, k ∈ (mul ext (T.eval ext) P).inds ↔ k = y ∨ k = z ∨ k = u ∨ k = l0 := by
        intro k; rw [Net.mul_mem, hT, hP]
        exact step1 (hne.sublist (by repeat first | exact List.Sublist.slnil | apply List.Sublist.cons_cons | apply List.Sublist.cons))
      have m2 : ∀ k, k ∈ (mul ext (mul ext (T.eval ext) P) Q).inds ↔ k = z ∨ k = t ∨ k = l0 ∨ k = a0 := by
        intro k; rw [Net.mul_mem, m1, hQ]
        refine step2 ?_
        have : [y, z, u, l0, t, a0].Perm [y, z, t, u, l0, a0] := by
          rw [List.perm_iff_count]; intro k; simp only [List.count_cons, List.count_nil]; omega
        rw [this.nodup_iff]
        exact hne.sublist (by repeat first | exact List.Sublist.slnil | apply List.Sublist.cons_cons | apply List.Sublist.cons)
      have m3 : ∀ k, k ∈ (mul ext (mul ext (mul ext (T.eval ext) P) Q) R).inds ↔ k = l0 ∨ k = a0 ∨ k = m0 := by
        intro k; rw [Net.mul_mem, m2, hR]
        exact step3 (hne.sublist (by repeat first | exact List.Sublist.slnil | apply List.Sublist.cons_cons | apply List.Sublist.cons))
      rw [interleave3]
      simp only [chainTree]
      refine ih (t' :: ts) A' B' C' l0 a0 m0 ls as ms _ (by simpa using hlen) hA2 hB2 hC2 (fun T hT => okA T (by simp [hT]))
        (fun T hT => okB T (by simp [hT])) (fun T hT => okC T (by simp [hT])) ok3 m3 hnd' ?_
      simp only [SizesOK]
      exact ⟨⟨⟨hst, bound (a := u) (b := x) (c := l0) (e := l0) okP fun k hk => ((hP k).1 hk).imp_right (Or.imp Eq.symm Or.inl),
        bound (a := y) (b := z) (c := u) (e := l0) ok1 fun k hk => (m1 k).1 hk⟩,
        bound (a := t) (b := u) (c := y) (e := a0) okQ fun k hk => or_assoc.1 (((hQ k).1 hk).imp_right (Or.imp_left Eq.symm)),
        bound (a := z) (b := t) (c := l0) (e := a0) ok2 fun k hk => (m2 k).1 hk⟩,
        bound (a := t) (b := z) (c := m0) (e := m0) okR fun k hk => ((hR k).1 hk).imp_right (Or.imp Eq.symm Or.inl),
        bound (a := l0) (b := a0) (c := m0) (e := m0) ok3 fun k hk => ((m3 k).1 hk).imp_right (Or.imp_right Or.inl)⟩

theorem first2 {X : Type*} {u l t a k : X} (h : [u, l, t, a].Nodup) :
    ((k = u ∨ k = l) ∧ ¬ ((k = t ∨ k = u) ∨ k = a) ∨ ((k = t ∨ k = u) ∨ k = a) ∧ ¬ (k = u ∨ k = l)) ↔ k = t ∨ k = l ∨ k = a := by
  simp only [List.nodup_cons, List.mem_cons, List.not_mem_nil, or_false, not_or, not_false_eq_true, List.nodup_nil, and_true] at h
  grind

theorem first3 {X : Type*} {t l a m k : X} (h : [t, l, a, m].Nodup) :
    ((k = t ∨ k = l ∨ k = a) ∧ ¬ (k = t ∨ k = m) ∨ (k = t ∨ k = m) ∧ ¬ (k = t ∨ k = l ∨ k = a)) ↔ k = l ∨ k = a ∨ k = m := by
  simp only [List.nodup_cons, List.mem_cons, List.not_mem_nil, or_false, not_or, not_false_eq_true, List.nodup_nil, and_true] at h
  grind

theorem sizes_op {ext : Key → Nat} {d fuel : Nat} (hd : 1 ≤ d) (hext : ∀ k, ext k ≤ d) (hmax : ((d ^ 4 : Nat) : Int) ≤ offMax)
    (hfuel : d ^ 4 < fuel) {A B C : List (DTensor K)} {P Q R : DTensor K} {u t l a m : List Key} (hlen : t.length = u.length)
    (hA : IsMPS ext (P :: A) u l) (hB : IsMPO ext (Q :: B) t u a) (hC : IsMPS ext (R :: C) t m)
    (hnd : (t ++ (u ++ (l ++ (a ++ m)))).Nodup) :
    SizesOK ext fuel (chainTree (.leaf P.sem) (([Q, R] ++ interleave3 A B C).map DTensor.sem)) := by
  have bound : ∀ {T : Ten Key K} {a b c e : Key}, T.OK → (∀ k ∈ T.inds, k = a ∨ k = b ∨ k = c ∨ k = e) →
      ((T.inds.map ext).prod : Int) ≤ offMax ∧ (T.inds.map ext).prod < fuel := by
    intro T a b c e hT h
    have : (T.inds.map ext).prod ≤ d ^ 4 := inds_le hd hext hT.nodup (L := [a, b, c, e]) (by
      intro k hk; simpa using h k hk) (by simp)
    exact ⟨le_trans (by exact_mod_cast this) hmax, by omega⟩
  have okS : ∀ {A : List (DTensor K)} {S : List (List Key)} {l : List Key}, IsChain ext A S l → ∀ T ∈ A.map DTensor.sem, T.OK := by
    intro A S l h T hT
    obtain ⟨U, hU, rfl⟩ := List.mem_map.1 hT
    exact DTensor.sem_ok (h.ok U hU)
  have okA := okS hA
  have okB := okS hB
  have okC := okS hC
  have sA := hA.sem_shape
  have sB := hB.sem_shape
  have sC := hC.sem_shape
  rw [List.map_append, interleave3_map]
  simp only [List.map_cons, List.map_nil, List.cons_append, List.nil_append] at okA okB okC sA sB sC ⊢
  clear hA hB hC okS
  generalize P.sem = P at *
  generalize Q.sem = Q at *
  generalize R.sem = R at *
  generalize A.map DTensor.sem = A at *
  generalize B.map DTensor.sem = B at *
  generalize C.map DTensor.sem = C at *
  have okP := okA P (by simp)
  have okQ := okB Q (by simp)
  have okR := okC R (by simp)
  have ok2 := mul_ok ext okP okQ
  have ok3 := mul_ok ext ok2 okR
  rcases u with _ | ⟨u, us⟩
  · rcases A with _ | ⟨_, A⟩ <;> simp [Shape] at sA
  rcases t with _ | ⟨t, ts⟩
  · simp at hlen
  rcases us with _ | ⟨u', us⟩
  · rcases ts with _ | ⟨t', ts⟩
    swap
    · simp at hlen
    obtain ⟨P0, hA1, rfl, hP⟩ := Shape.one sA
    obtain ⟨Q0, hB1, rfl, hQ⟩ := Shape.one sB
    obtain ⟨R0, hC1, rfl, hR⟩ := Shape.one sC
    simp only [List.cons.injEq, List.map_eq_nil_iff] at hA1 hB1 hC1
    obtain ⟨rfl, rfl⟩ := hA1
    obtain ⟨rfl, rfl⟩ := hB1
    obtain ⟨rfl, rfl⟩ := hC1
    simp only [List.mem_cons, List.not_mem_nil, or_false, reduceCtorEq] at hP hQ hR
    simp only [List.append_nil, List.cons_append, List.nil_append, List.nodup_cons, List.mem_cons, List.not_mem_nil, or_false,
      not_false_eq_true, List.nodup_nil, and_true] at hnd
    have m2 : ∀ k, k ∈ (mul ext P Q).inds ↔ k = t := by
      intro k; rw [Net.mul_mem, hP, hQ]; grind
    have m3 : ∀ k, ¬ k ∈ (mul ext (mul ext P Q) R).inds := by
      intro k; rw [Net.mul_mem, m2, hR]; grind
    simp only [interleave3, chainTree, SizesOK]
    exact ⟨⟨bound (a := u) (b := u) (c := u) (e := u) okP fun k hk => Or.inl ((hP k).1 hk),
      bound (a := t) (b := u) (c := u) (e := u) okQ fun k hk => ((hQ k).1 hk).imp_right Or.inl,
      bound (a := t) (b := t) (c := t) (e := t) ok2 fun k hk => Or.inl ((m2 k).1 hk)⟩,
      bound (a := t) (b := t) (c := t) (e := t) okR fun k hk => Or.inl ((hR k).1 hk),
      bound (a := t) (b := t) (c := t) (e := t) ok3 fun k hk => absurd hk (m3 k)⟩
  · rcases ts with _ | ⟨t', ts⟩
    · simp at hlen
    obtain ⟨P0, A0, l0, ls, hA1, rfl, hP, hA2⟩ := Shape.more sA
    obtain ⟨Q0, B0, a0, as, hB1, rfl, hQ, hB2⟩ := Shape.more sB
    obtain ⟨R0, C0, m0, ms, hC1, rfl, hR, hC2⟩ := Shape.more sC
    simp only [List.cons.injEq] at hA1 hB1 hC1
    obtain ⟨rfl, rfl⟩ := hA1
    obtain ⟨rfl, rfl⟩ := hB1
    obtain ⟨rfl, rfl⟩ := hC1
    have hsub : ([l0, a0, m0] ++ (t' :: ts ++ (u' :: us ++ (ls ++ (as ++ ms))))).Nodup ∧ [u, t, l0, a0, m0].Nodup := by
      have hp : (t :: t' :: ts ++ (u :: u' :: us ++ (l0 :: ls ++ (a0 :: as ++ m0 :: ms)))).Perm
          ([u, t] ++ ([l0, a0, m0] ++ (t' :: ts ++ (u' :: us ++ (ls ++ (as ++ ms)))))) := by
        rw [List.perm_iff_count]
        intro k
        simp only [List.count_append, List.count_cons, List.count_nil]
        omega
      have h := hp.nodup_iff.1 hnd
      refine ⟨(List.nodup_append.1 h).2.1, ?_⟩
      rw [← List.append_assoc] at h
      exact (List.nodup_append.1 h).1
    obtain ⟨hnd', hne⟩ := hsub
    simp only [List.mem_cons, List.not_mem_nil, or_false, false_or, reduceCtorEq] at hP hQ hR
    have m2 : ∀ k, k ∈ (mul ext P Q).inds ↔ k = t ∨ k = l0 ∨ k = a0 := by
      intro k; rw [Net.mul_mem, hP, hQ]
      refine first2 ?_
      have : [u, l0, t, a0].Perm [u, t, l0, a0] := by
        rw [List.perm_iff_count]; intro k; simp only [List.count_cons, List.count_nil]; omega
      rw [this.nodup_iff]
      exact hne.sublist (by repeat first | exact List.Sublist.slnil | apply List.Sublist.cons_cons | apply List.Sublist.cons)
    have m3 : ∀ k, k ∈ (mul ext (mul ext P Q) R).inds ↔ k = l0 ∨ k = a0 ∨ k = m0 := by
      intro k; rw [Net.mul_mem, m2, hR]
      exact first3 (hne.sublist (by repeat first | exact List.Sublist.slnil | apply List.Sublist.cons_cons | apply List.Sublist.cons))
    simp only [chainTree]
    refine sizes3 hd hext hmax hfuel (u' :: us) (t' :: ts) A B C l0 a0 m0 ls as ms _ (by simpa using hlen) hA2 hB2 hC2
      (fun T hT => okA T (by simp [hT])) (fun T hT => okB T (by simp [hT])) (fun T hT => okC T (by simp [hT])) ok3 m3 hnd' ?_
    simp only [SizesOK]
    exact ⟨⟨bound (a := u) (b := l0) (c := l0) (e := l0) okP fun k hk => ((hP k).1 hk).imp_right Or.inl,
      bound (a := t) (b := u) (c := a0) (e := a0) okQ fun k hk => (or_assoc.1 ((hQ k).1 hk)).imp_right (Or.imp_right Or.inl),
      bound (a := t) (b := l0) (c := a0) (e := a0) ok2 fun k hk => ((m2 k).1 hk).imp_right (Or.imp_right Or.inl)⟩,
      bound (a := t) (b := m0) (c := m0) (e := m0) okR fun k hk => ((hR k).1 hk).imp_right Or.inl,
      bound (a := l0) (b := a0) (c := m0) (e := m0) ok3 fun k hk => ((m3 k).1 hk).imp_right (Or.imp_right Or.inl)⟩

theorem Shape.length {left : Option Key} {M S : List (List Key)} {l : List Key} (h : Shape left M S l) : M.length = S.length :=
  Shape.chain (motive := fun _ M S _ => M.length = S.length) (fun _ _ _ _ => rfl)
    (fun _ _ _ _ _ _ _ _ _ _ ih => by simpa using ih) M left S l h

/-- The output sites of the operator are found on each of its tensors. -/
theorem pick_op {ext : Key → Nat} {A y : List (DTensor K)} {t u a l : List Key} (hA : IsMPO ext A t u a) (hy : IsMPS ext y u l)
    (hlen : t.length = u.length) (hdis : ∀ k ∈ t, k ∉ u ++ l) : Pick (pairs t u) (y.map (·.is)) t := by
  have hmem : ∀ T ∈ y, ∀ k ∈ keys T.is, k ∉ t := by
    intro T hT k hk ht
    obtain ⟨i, hi, rfl⟩ := List.mem_map.1 hk
    have := hy.mem_names hT hi
    rw [flatten_single] at this
    exact hdis _ ht this
  have hin : ∀ n (h : n < y.length) (h' : n < u.length), u[n] ∈ keys (y[n]).is := by
    have hs := hy.shape
    clear hy hmem hA hdis hlen
    have : ∀ (M : List (List Key)) left S l, Shape left M S l → ∀ n (h : n < M.length) (h' : n < S.length), ∀ k ∈ S[n], k ∈ M[n] := by
      refine Shape.chain ?_ ?_
      · intro left T S hT n h h' k hk
        simp only [List.length_singleton, Nat.lt_one_iff] at h
        subst h
        exact (hT k).2 (Or.inl hk)
      · intro left T U Ts S Ss l ls hT _ ih n h h' k hk
        rcases n with _ | n
        · exact (hT k).2 (Or.inl hk)
        · simp only [List.getElem_cons_succ] at hk ⊢
          exact ih n (by simpa using h) (by simpa using h') k hk
    intro n h h'
    have := this _ _ _ _ hs n (by simpa using h) (by simpa using h') u[n] (by simp)
    simpa using this
  have hlu : y.length = u.length := by simpa using hy.shape.length
  clear hy
  have hnd : (t ++ u).Nodup := ((pairs_perm hlen).nodup_iff).1 (List.nodup_append.1 hA.nodup).1
  clear hA hdis
  induction t generalizing u y with
  | nil =>
    rcases u with _ | ⟨u, us⟩
    · simp [pairs, Pick]
    · simp at hlen
  | cons t ts ih =>
    rcases u with _ | ⟨u, us⟩
    · simp at hlen
    rcases y with _ | ⟨y, ys⟩
    · simp at hlu
    simp only [pairs, List.zip_cons_cons, List.map_cons, Pick, List.headD_cons, List.tail_cons]
    refine ⟨fun k => ⟨fun h => ?_, ?_⟩, ?_⟩
    · rcases List.mem_cons.1 h.1 with h1 | h1
      · exact h1
      · rw [List.mem_singleton] at h1
        exact absurd (h1 ▸ hin 0 (by simp) (by simp)) h.2
    · rintro rfl
      exact ⟨by simp, fun h => hmem y (by simp) k h (by simp)⟩
    · refine ih (by simpa using hlen) (fun T hT k hk h => hmem T (by simp [hT]) k hk (by simp [h])) (fun n h h' => ?_) (by simpa using hlu) ?_
      · exact hin (n + 1) (by simpa using h) (by simpa using h')
      · exact hnd.sublist (((List.Sublist.refl ts).append (List.sublist_cons_self u us)).cons t)

/-- The conjugated state: sites named like the output sites of the operator, links renamed. -/
theorem braOp_spec {ext : Key → Nat} {x A y : List (DTensor K)} {s l t u a ly : List Key} (hx : IsMPS ext x s l)
    (hA : IsMPO ext A t u a) (hy : IsMPS ext y u ly) (hlen : t.length = u.length) (hdt : ∀ k ∈ t, k ∉ u ++ ly) (conj : K →+* K)
    {newid : Key → Nat} {ren : Key → Key} (hs : s.map ren = t) (hl : ∀ k ∈ l, ren k = simKey newid k) (hd : t.map ext = s.map ext)
    (hdis : ∀ k ∈ t, k ∉ l) (h0 : ∀ k ∈ l, newid k ≠ 0) (hnd : (l.map ren).Nodup) :
    ∃ p, braOp conj newid x A y = .ok p ∧ List.Forall₂ (Renamed ren conj) x p := by
  obtain ⟨sx, e1, k1, m1⟩ := siteIndsFrom_spec (prev := []) hA.shape hA.nodup (by simp) (by simp [keys]) (fun T hT => (hA.ok T hT).nodup)
    (pick_op hA hy hlen hdt)
  have htn : t.Nodup := (List.nodup_append.1 ((pairs_perm hlen).nodup_iff.1 (List.nodup_append.1 hA.nodup).1)).1
  have hndx := hx.nodup
  rw [flatten_single] at hndx
  have hsl : ∀ k ∈ s, k ∉ l := fun k hk hk' => (List.nodup_append.1 hndx).2.2 k hk k hk' rfl
  have hln : l.Nodup := (List.nodup_append.1 hndx).2.1
  -- sites
  let ren1 : Key → Key := fun k => if k ∈ s then ren k else k
  have hren1 : s.map ren1 = t := by
    rw [← hs]; exact List.map_congr_left fun k hk => by simp [ren1, hk]
  have hren1l : ∀ k ∈ l, ren1 k = k := fun k hk => by
    simp only [ren1]; rw [if_neg fun h => hsl k h hk]
  obtain ⟨p1, e2, r1⟩ := replaceSiteInds_spec hx (sites := sx) (ren := ren1) (by rw [k1, hren1])
    (by
      rw [← hd, ← k1]
      simp only [keys, List.map_map]
      apply List.map_congr_left
      intro i hi
      obtain ⟨T, hT, hiT⟩ := m1 i hi
      exact (hA.ok T hT).dims i hiT)
    (by
      intro i hi
      obtain ⟨T, hT, hiT⟩ := m1 i hi
      exact hA.plain T hT i hiT) hren1l (by rw [k1]; exact htn)
  have hmapl : l.map ren1 = l := by
    conv_rhs => rw [← List.map_id l]
    exact List.map_congr_left hren1l
  have hmaps : (s.map fun k => [k]).map (·.map ren1) = t.map fun k => [k] := by
    rw [← hren1]; simp
  have hp1 : IsMPS ext p1 t l := by
    have := hx.renamed r1 (by
        rw [hmaps, hmapl, flatten_single, List.nodup_append]
        exact ⟨htn, hln, fun a ha b hb e => hdis a ha (e ▸ hb)⟩)
      (by
        rw [flatten_single]
        intro k hk
        rcases List.mem_append.1 hk with h | h
        · have : s.map (fun k => ext (ren1 k)) = s.map ext := by
            rw [← hd, ← hren1, List.map_map]; rfl
          exact List.map_inj_left.1 this k h
        · rw [hren1l k h])
    rwa [hmaps, hmapl] at this
  -- conjugation
  have hconj : List.Forall₂ (Renamed id conj) p1 (p1.map (dagD conj)) := by
    rw [List.forall₂_map_right_iff, List.forall₂_same]
    intro T hT
    exact ⟨id, by simp [dagD], fun _ => rfl, fun i hi => ⟨rfl, rfl, hp1.plain T hT i hi⟩⟩
  have hpd : IsMPS ext (p1.map (dagD conj)) t l := by
    have hid : (t.map fun k => [k]).map (·.map id) = t.map fun k => [k] := by simp [Function.comp_def]
    have := hp1.renamed hconj (by rw [hid, List.map_id]; exact hp1.nodup) (by simp)
    rwa [hid, List.map_id] at this
  -- links
  let ren2 : Key → Key := fun k => if k ∈ l then simKey newid k else k
  have hmap2 : l.map ren2 = l.map ren := List.map_congr_left fun k hk => by simp [ren2, hk, hl k hk]
  obtain ⟨p2, e3, r2⟩ := freshLinks_spec hpd (newid := newid) (ren := ren2)
    (by
      rw [flatten_single]
      intro k hk
      simp only [ren2]; rw [if_neg (hdis k hk)])
    (fun k hk => by simp [ren2, hk]) h0 (by rw [hmap2]; exact hnd)
  refine ⟨p2, ?_, ?_⟩
  · simp only [braOp, e1, e2, Res.bind, e3]
  · have h12 := forall₂_trans (P := Renamed (fun k => ren1 k) conj) (fun a b c h h' => (h.trans h').congr fun _ _ => rfl) r1 hconj
    have h13 := forall₂_trans (P := Renamed (fun k => ren2 (ren1 k)) conj) (fun a b c h h' => (h.trans h').congr fun _ _ => rfl) h12 r2
    refine forall₂_imp_mem h13 fun T hT U hTU => hTU.congr fun i hi => ?_
    have hk := hx.mem_names hT hi
    rw [flatten_single] at hk
    rcases List.mem_append.1 hk with h | h
    · have h1 : ren i.key ∈ t := by rw [← hs]; exact List.mem_map_of_mem h
      simp only [ren1, if_pos h, ren2, if_neg (hdis _ h1)]
    · simp only [hren1l _ h, ren2, if_pos h, hl _ h]

theorem count_cases {t u l a m : Prop} [Decidable t] [Decidable u] [Decidable l] [Decidable a] [Decidable m] [Decidable (t ∨ u)]
    (h : (t → ¬ u ∧ ¬ l ∧ ¬ a ∧ ¬ m) ∧ (u → ¬ l ∧ ¬ a ∧ ¬ m) ∧ (l → ¬ a ∧ ¬ m) ∧ (a → ¬ m)) :
    (((if u then 1 else 0) + (if l then 2 else 0)) + (((if t ∨ u then 1 else 0) + (if a then 2 else 0)) +
      ((if t then 1 else 0) + (if m then 2 else 0))) = 0 ∨
    ((if u then 1 else 0) + (if l then 2 else 0)) + (((if t ∨ u then 1 else 0) + (if a then 2 else 0)) +
      ((if t then 1 else 0) + (if m then 2 else 0))) = 2) ∧
    (((if u then 1 else 0) + (if l then 2 else 0)) + (((if t ∨ u then 1 else 0) + (if a then 2 else 0)) +
      ((if t then 1 else 0) + (if m then 2 else 0))) = 2 ↔ t ∨ u ∨ l ∨ a ∨ m) := by
  by_cases ht : t <;> by_cases hu : u <;> by_cases hl : l <;> by_cases ha : a <;> by_cases hm : m <;> simp [ht, hu, hl, ha, hm] at h ⊢

/-- C56: `inner(x,A,y)` is the sum over all values `w` of the output sites and `v` of the input sites of the operator of the
conjugated component of `x` at `w`, times the matrix element of `A` between `w` and `v`, times the component of `y` at `v`.
The site indices of `x` may have any names. Every intermediate tensor has at most `d ^ 4` elements. -/
theorem C56_op {ext : Key → Nat} {x A y : List (DTensor K)} {s l t u a ly : List Key} (hx : IsMPS ext x s l)
    (hA : IsMPO ext A t u a) (hy : IsMPS ext y u ly) (hlen : t.length = u.length) (hnames : (t ++ (u ++ (ly ++ a))).Nodup)
    (hdim : t.map ext = s.map ext) (hdis : ∀ k ∈ t, k ∉ l) (conj : K →+* K)
    {newid : Key → Nat} (hf : Fresh ext newid l (t ++ (u ++ (ly ++ a)))) {d fuel : Nat} (hd : 1 ≤ d) (hext : ∀ k, ext k ≤ d)
    (hmax : ((d ^ 4 : Nat) : Int) ≤ offMax) (hfuel : d ^ 4 < fuel) (junk fresh : Int → K) :
    innerOp fuel junk fresh conj newid x A y = some (.ok (sumVals (t.map ext) fun w => sumVals (u.map ext) fun v =>
      conj (amp ext x l (assign 0 s w)) * amp ext A a (assign (assign 0 t w) u v) * amp ext y ly (assign 0 u v))) := by
  have ndx := hx.nodup
  have ndy := hy.nodup
  rw [flatten_single] at ndx ndy
  have hsn := (List.nodup_append.1 ndx).1
  have htn := (List.nodup_append.1 hnames).1
  have hun := (List.nodup_append.1 ndy).1
  have hdt : ∀ k ∈ t, k ∉ u ++ (ly ++ a) := fun k hk hk' => (List.nodup_append.1 hnames).2.2 k hk k hk' rfl
  have hdu : ∀ k ∈ u, k ∉ ly ++ a := fun k hk hk' => (List.nodup_append.1 (List.nodup_append.1 hnames).2.1).2.2 k hk k hk' rfl
  have hdl : ∀ k ∈ ly, k ∉ a := fun k hk hk' =>
    (List.nodup_append.1 (List.nodup_append.1 (List.nodup_append.1 hnames).2.1).2.1).2.2 k hk k hk' rfl
  have hst : s.length = t.length := by simpa using (congrArg List.length hdim).symm
  have hsl : ∀ k ∈ s, k ∉ l := fun k hk hk' => (List.nodup_append.1 ndx).2.2 k hk k hk' rfl
  obtain ⟨ren, hs, hren⟩ := exists_ren (simKey newid) hsn hst
  have hrl : ∀ k ∈ l, ren k = simKey newid k := fun k hk => hren k fun h => hsl k h hk
  have hmn : (l.map ren).Nodup := by rw [List.map_congr_left hrl]; exact hf.nodup
  have hmu : ∀ k ∈ l.map ren, k ∉ t ++ (u ++ (ly ++ a)) := by
    intro k hk
    obtain ⟨k', hk', rfl⟩ := List.mem_map.1 hk
    rw [hrl k' hk']; exact hf.unused k' hk'
  obtain ⟨p, hp, hrp⟩ := braOp_spec hx hA hy hlen (fun k hk h => hdt k hk (by
    rcases List.mem_append.1 h with h | h <;> simp [h])) conj hs hrl hdim hdis hf.ne_zero hmn
  have hnd1 : (t ++ l.map ren).Nodup := by
    rw [List.nodup_append]
    exact ⟨htn, hmn, fun x hx y hy e => hmu y hy (by rw [← e]; simp [hx])⟩
  have hS : (s.map fun k => [k]).map (·.map ren) = t.map fun k => [k] := by
    rw [← hs]; simp [Function.comp_def]
  have he : ∀ k ∈ (s.map fun k => [k]).flatten ++ l, ext (ren k) = ext k := by
    rw [flatten_single]
    intro k hk
    rcases List.mem_append.1 hk with hk | hk
    · have : s.map (fun k => ext (ren k)) = s.map ext := by
        rw [← hdim, ← hs, List.map_map]; rfl
      exact List.map_inj_left.1 this k hk
    · rw [hrl k hk]; exact hf.ext_eq k hk
  have hpm : IsMPS ext p t (l.map ren) := by
    have := hx.renamed hrp (by rw [hS, flatten_single]; exact hnd1) he
    rwa [hS] at this
  have hnd2 : (t ++ (u ++ (ly ++ (a ++ l.map ren)))).Nodup := by
    have e : t ++ (u ++ (ly ++ (a ++ l.map ren))) = (t ++ (u ++ (ly ++ a))) ++ l.map ren := by simp only [List.append_assoc]
    rw [e, List.nodup_append]
    exact ⟨hnames, hmn, fun x hx y hy e => hmu y hy (e ▸ hx)⟩
  have hlp : x.length = p.length := hrp.length_eq
  have hlx : x.length = s.length := by simpa using hx.shape.length
  have hly : y.length = u.length := by simpa using hy.shape.length
  have hlA : A.length = t.length := by
    have := hA.shape.length
    simp only [pairs, List.length_map, List.length_zip] at this
    omega
  have hocc3 : ∀ k, (occ k (y.map DTensor.sem) = (if k ∈ u then 1 else 0) + (if k ∈ ly then 2 else 0)) ∧
      (occ k (A.map DTensor.sem) = (if k ∈ t ∨ k ∈ u then 1 else 0) + (if k ∈ a then 2 else 0)) ∧
      (occ k (p.map DTensor.sem) = (if k ∈ t then 1 else 0) + (if k ∈ l.map ren then 2 else 0)) := by
    intro k
    have h1 := hy.occ k
    have h2 := hA.occ k
    have h3 := hpm.occ k
    rw [flatten_single] at h1 h3
    simp only [(pairs_perm hlen).mem_iff, List.mem_append] at h2
    exact ⟨h1, h2, h3⟩
  have hAin : ∀ k, k ∈ (pairs t u).flatten ↔ k ∈ t ∨ k ∈ u := fun k => by
    rw [(pairs_perm hlen).mem_iff, List.mem_append]
  rcases y with _ | ⟨P, Y⟩
  · exact absurd hy.shape (by simp [Shape])
  rcases A with _ | ⟨Q, B⟩
  · exact absurd hA.shape (by simp [Shape])
  rcases p with _ | ⟨R, C⟩
  · exact absurd hpm.shape (by simp [Shape])
  simp only [List.length_cons] at hlx hly hlA hlp
  have hfl : P :: ([Q, R] ++ ((Y.zip (B.zip C)).map fun q => [q.1, q.2.1, q.2.2]).flatten) = interleave3 (P :: Y) (Q :: B) (R :: C) := by
    rw [zip3_flatten]; rfl
  have hperm : (interleave3 (P :: Y) (Q :: B) (R :: C)).Perm ((P :: Y) ++ ((Q :: B) ++ (R :: C))) :=
    interleave3_perm (by simp only [List.length_cons]; omega) (by simp only [List.length_cons]; omega)
  have hocc : ∀ k, occ k ((P :: ([Q, R] ++ ((Y.zip (B.zip C)).map fun q => [q.1, q.2.1, q.2.2]).flatten)).map DTensor.sem) =
      ((if k ∈ u then 1 else 0) + (if k ∈ ly then 2 else 0)) + (((if k ∈ t ∨ k ∈ u then 1 else 0) + (if k ∈ a then 2 else 0)) +
        ((if k ∈ t then 1 else 0) + (if k ∈ l.map ren then 2 else 0))) := by
    intro k
    obtain ⟨h1, h2, h3⟩ := hocc3 k
    rw [hfl, ← h1, ← h2, ← h3, ← occ_append, ← occ_append, ← List.map_append, ← List.map_append]
    exact (hperm.map _).countP_eq _
  have hcase : ∀ k, (k ∈ t → k ∉ u ∧ k ∉ ly ∧ k ∉ a ∧ k ∉ l.map ren) ∧ (k ∈ u → k ∉ ly ∧ k ∉ a ∧ k ∉ l.map ren) ∧
      (k ∈ ly → k ∉ a ∧ k ∉ l.map ren) ∧ (k ∈ a → k ∉ l.map ren) := by
    intro k
    have h1 := hdt k
    have h2 := hdu k
    have h3 := hdl k
    have h4 := hmu k
    simp only [List.mem_append, not_or] at h1 h2 h4
    generalize (k ∈ l.map ren) = z at *
    tauto
  rw [innerOp, if_neg (by simp only [List.length_cons, ne_eq]; omega), hp]
  simp only [List.zip_cons_cons, List.map_cons]
  rw [sandwich_spec (ext := ext) junk fresh (D := t ++ (u ++ (ly ++ (a ++ l.map ren)))) (σ := 0)]
  · congr 2
    rw [hfl]
    have hprod : ∀ τ : Key → Nat, ((interleave3 (P :: Y) (Q :: B) (R :: C)).map fun U => U.sem.val τ).prod =
        ((P :: Y).map fun U => U.sem.val τ).prod * (((Q :: B).map fun U => U.sem.val τ).prod *
          ((R :: C).map fun U => U.sem.val τ).prod) := by
      intro τ
      rw [← List.prod_append, ← List.prod_append, ← List.map_append, ← List.map_append]
      exact (hperm.map _).prod_eq
    simp only [hprod]
    rw [sumOver_append]
    have hin : ∀ τ, sumOver ext (ly ++ (a ++ l.map ren)) (fun τ => ((P :: Y).map fun U => U.sem.val τ).prod *
        (((Q :: B).map fun U => U.sem.val τ).prod * ((R :: C).map fun U => U.sem.val τ).prod)) τ =
        amp ext (P :: Y) ly τ * (amp ext (Q :: B) a τ * amp ext (R :: C) (l.map ren) τ) := by
      intro τ
      rw [sumOver_append]
      have e1 : sumOver ext (l.map ren) (fun τ => ((Q :: B).map fun U => U.sem.val τ).prod * ((R :: C).map fun U => U.sem.val τ).prod) =
          fun τ => ((Q :: B).map fun U => U.sem.val τ).prod * amp ext (R :: C) (l.map ren) τ := by
        funext τ
        refine sumOver_mul_left ext (l.map ren) τ (hA.prod_dep.mono fun k hk hk' => ?_)
        rw [List.mem_append, hAin] at hk
        have := hmu k hk'
        simp only [List.mem_append, not_or] at this
        tauto
      have e2 : sumOver ext a (fun τ => ((Q :: B).map fun U => U.sem.val τ).prod * amp ext (R :: C) (l.map ren) τ) =
          fun τ => amp ext (Q :: B) a τ * amp ext (R :: C) (l.map ren) τ := by
        funext τ
        refine sumOver_mul_right ext a τ (hpm.amp_dep.mono fun k hk hk' => ?_)
        rw [flatten_single] at hk
        exact hdt k hk (by simp [hk'])
      have e3 : sumOver ext (a ++ l.map ren) (fun τ => ((P :: Y).map fun U => U.sem.val τ).prod *
          (((Q :: B).map fun U => U.sem.val τ).prod * ((R :: C).map fun U => U.sem.val τ).prod)) =
          fun τ => ((P :: Y).map fun U => U.sem.val τ).prod * (amp ext (Q :: B) a τ * amp ext (R :: C) (l.map ren) τ) := by
        funext τ
        rw [sumOver_mul_left ext (a ++ l.map ren) τ, sumOver_append, e1, e2]
        refine hy.prod_dep.mono fun k hk hk' => ?_
        rw [flatten_single] at hk
        obtain ⟨_, h2, h3, _⟩ := hcase k
        rcases List.mem_append.1 hk with h | h <;> rcases List.mem_append.1 hk' with h' | h'
        · exact (h2 h).2.1 h'
        · exact (h2 h).2.2 h'
        · exact (h3 h).1 h'
        · exact (h3 h).2 h'
      rw [e3]
      refine sumOver_mul_right ext ly τ ?_
      refine DependsOn.mul (hA.amp_dep.mono fun k hk hk' => ?_) (hpm.amp_dep.mono fun k hk hk' => ?_)
      · rw [hAin] at hk
        obtain ⟨h1, h2, _, _⟩ := hcase k
        rcases hk with h | h
        · exact (h1 h).2.1 hk'
        · exact (h2 h).1 hk'
      · rw [flatten_single] at hk
        exact ((hcase k).1 hk).2.1 hk'
    have hin2 : sumOver ext (u ++ (ly ++ (a ++ l.map ren))) (fun τ => ((P :: Y).map fun U => U.sem.val τ).prod *
        (((Q :: B).map fun U => U.sem.val τ).prod * ((R :: C).map fun U => U.sem.val τ).prod)) =
        sumOver ext u (fun τ => amp ext (P :: Y) ly τ * (amp ext (Q :: B) a τ * amp ext (R :: C) (l.map ren) τ)) := by
      funext τ
      rw [sumOver_append, funext hin]
    rw [hin2, sumOver_vals]
    refine sumVals_congr fun w hw => ?_
    rw [sumOver_vals]
    refine sumVals_congr fun v hv => ?_
    have hconjx : amp ext (R :: C) (l.map ren) (assign (assign 0 t w) u v) = conj (amp ext x l (assign 0 s w)) := by
      refine amp_renamed hx hrp (by rw [flatten_single, List.map_append, hs]; exact hnd1) he _ _ ?_
      rw [flatten_single]
      intro k hk
      rcases List.mem_append.1 hk with hk | hk
      · have hkt : ren k ∈ t := by rw [← hs]; exact List.mem_map_of_mem hk
        rw [assign_not_mem ((hcase _).1 hkt).1]
        obtain ⟨n, hn, rfl⟩ := List.getElem_of_mem hk
        have hn' : n < t.length := by omega
        have hv' : n < w.length := by simp only [List.length_map] at hw; omega
        rw [assign_getElem hsn n hn hv']
        have : ren s[n] = t[n] := by simp only [← hs, List.getElem_map]
        rw [this, assign_getElem htn n hn' hv']
      · have hkm : ren k ∈ l.map ren := List.mem_map_of_mem hk
        have := hmu _ hkm
        simp only [List.mem_append, not_or] at this
        rw [assign_not_mem this.2.1, assign_not_mem this.1, assign_not_mem fun h => hsl k h hk]
        rfl
    have hy' : amp ext (P :: Y) ly (assign (assign 0 t w) u v) = amp ext (P :: Y) ly (assign 0 u v) := by
      refine hy.amp_dep _ _ fun k hk => ?_
      rw [flatten_single] at hk
      obtain ⟨n, hn, rfl⟩ := List.getElem_of_mem hk
      have hv' : n < v.length := by simp only [List.length_map] at hv; omega
      rw [assign_getElem hun n hn hv', assign_getElem hun n hn hv']
    rw [hconjx, hy']
    ring
  · rw [hfl]
    intro U hU
    have := hperm.mem_iff.1 hU
    rcases List.mem_append.1 this with h | h
    · exact hy.ok U h
    · rcases List.mem_append.1 h with h | h
      · exact hA.ok U h
      · exact hpm.ok U h
  · rw [zip3_flatten]
    exact sizes_op hd hext hmax hfuel hlen hy hA hpm hnd2
  · intro k
    rw [hocc]
    exact (count_cases (hcase k)).1
  · exact hnd2
  · intro k
    rw [hocc, (count_cases (hcase k)).2]
    simp only [List.mem_append]

end Verif.MPS
