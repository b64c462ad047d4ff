import Verif.MPS.InitStateQ

/-! # Property C101: a product state is the state asked for -/

namespace Verif.MPS

open Verif.Index (Index IndexSet)
open Verif.Index.IndexSet (keys Key commonInds hasIndex)
open Verif.QDense
open Verif.QN (QN IsQN norm norm_add_norm_left norm_add_norm_right norm_neg_norm norm_norm)
open Verif.Tensor
open Verif.Net (DTensor)

section
variable {K : Type*} [CommRing K]
variable {M : Verif.QN.Name → Int} {u : List Verif.QN.Name}

theorem sumOver_ones {ext : Key → Nat} (F : (Key → Nat) → K) : ∀ (l : List Key) (σ : Key → Nat), (∀ k ∈ l, ext k = 1) →
    sumOver ext l F σ = F fun k => if k ∈ l then 0 else σ k
  | [], σ, _ => by simp [sumOver]
  | x :: l, σ, h => by
    simp only [sumOver, h x (by simp), Finset.range_one, Finset.sum_singleton]
    rw [sumOver_ones F l _ fun k hk => h k (by simp [hk])]
    congr 1
    funext k
    by_cases hk : k = x
    · subst hk; by_cases hl : k ∈ l <;> simp [hl]
    · simp [hk, Function.update_of_ne hk]

theorem qnLinks_length (lnk : Nat → Nat × Verif.TagSet.TagSet) : ∀ (qs : List QN) (k : Nat), (qnLinks lnk k qs).length = qs.length
  | [], _ => rfl
  | q :: qs, k => by simp [qnLinks, qnLinks_length lnk qs]

/-! ## The indices -/

/-- The indices of the tensor `j` (from 0) of a product state of `N` sites, with the arrows. -/
def IndsAt (lnk : Nat → Nat × Verif.TagSet.TagSet) (N j : Nat) (s : Index) (is : IndexSet) : Prop :=
  ∃ pre post, is = pre ++ s :: post ∧ (j = 0 → pre = []) ∧
    (0 < j → ∃ P : Index, P.key = linkKey lnk j ∧ P.dir = -1 ∧ qdim P = 1 ∧ pre = [P]) ∧ (j + 1 = N → post = []) ∧
    (j + 1 < N → ∃ a : Index, a.key = linkKey lnk (j + 1) ∧ a.dir = 1 ∧ qdim a = 1 ∧ post = [a])

theorem restInds_get (lnk : Nat → Nat × Verif.TagSet.TagSet) : ∀ (vs : List IVal) (p : Index) (qs : List QN) (k N : Nat), 1 ≤ k →
    N = k + vs.length → qs.length = vs.length → p.key = linkKey lnk k → p.dir = 1 → qdim p = 1 → ∀ j s, vs[j]? = some s →
    ∃ is, (restInds p vs (qnLinks lnk (k + 1) qs))[j]? = some is ∧ IndsAt lnk N (k + j) s.1 is
  | [], _, _, _, _, _, _, _, _, _, _, j, s, h => by simp at h
  | [v], p, qs, k, N, hk, hN, hq, hp, hd, h1d, j, s, h => by
    rcases j with _ | j
    · simp only [List.length_cons, List.length_nil] at hN
      simp at h; subst h
      refine ⟨[p.dag, v.1], by simp [restInds, restVals], [p.dag], [], rfl, by omega, fun _ => ⟨p.dag, by simpa using hp, by simp [Index.dag, hd], h1d, rfl⟩,
        fun _ => rfl, by omega⟩
    · simp at h
  | v :: v' :: vs, p, [], k, N, hk, hN, hq, hp, hd, h1d, j, s, h => by simp at hq
  | v :: v' :: vs, p, q :: qs, k, N, hk, hN, hq, hp, hd, h1d, j, s, h => by
    have hN' : N = (k + 1) + (v' :: vs).length := by simp only [List.length_cons] at hN ⊢; omega
    rcases j with _ | j
    · simp at h; subst h
      refine ⟨[p.dag, v.1, lk lnk (k + 1) q], by simp [restInds, restVals, qnLinks, lk], [p.dag], [lk lnk (k + 1) q], rfl, by omega,
        fun _ => ⟨p.dag, by simpa using hp, by simp [Index.dag, hd], h1d, rfl⟩, ?_, fun _ => ⟨_, lk_key lnk (k + 1) q, rfl, rfl, rfl⟩⟩
      intro e; simp only [List.length_cons] at hN'; omega
    · simp only [List.getElem?_cons_succ] at h
      obtain ⟨is, h1, h2⟩ := restInds_get lnk (v' :: vs) (lk lnk (k + 1) q) qs (k + 1) N (by omega) hN' (by simpa using hq) (lk_key lnk (k + 1) q) rfl rfl
        j s h
      refine ⟨is, ?_, by rw [show k + (j + 1) = k + 1 + j by omega]; exact h2⟩
      rw [← h1]
      rfl

section
variable {lnk : Nat → Nat × Verif.TagSet.TagSet} {vs : List IVal}

/-- What it means that all names are different. -/
structure Names (lnk : Nat → Nat × Verif.TagSet.TagSet) (vs : List IVal) : Prop where
  links : ∀ i j, 1 ≤ i → i ≤ vs.length → 1 ≤ j → j ≤ vs.length → linkKey lnk i = linkKey lnk j → i = j
  sl : ∀ s ∈ vs, ∀ i, 1 ≤ i → i ≤ vs.length → s.1.key ≠ linkKey lnk i
  sites : ∀ (i j : Nat) (s t : IVal), vs[i]? = some s → vs[j]? = some t → s.1.key = t.1.key → i = j

theorem names_of (h : (vs.map (·.1.key) ++ (List.range' 1 vs.length).map (linkKey lnk)).Nodup) : Names lnk vs := by
  obtain ⟨h1, h2, h3⟩ := List.nodup_append.1 h
  refine ⟨?_, ?_, ?_⟩
  · intro i j a b c d e
    exact List.inj_on_of_nodup_map h2 (List.mem_range'_1.2 ⟨a, by omega⟩) (List.mem_range'_1.2 ⟨c, by omega⟩) e
  · intro s hs i a b e
    exact h3 _ (List.mem_map_of_mem hs) _ (List.mem_map_of_mem (List.mem_range'_1.2 ⟨a, by omega⟩)) e
  · intro i j s t hi hj e
    obtain ⟨li, ei⟩ := List.getElem?_eq_some_iff.1 hi
    obtain ⟨lj, ej⟩ := List.getElem?_eq_some_iff.1 hj
    have := (List.nodup_iff_injective_get.1 h1) (a₁ := ⟨i, by simpa using li⟩) (a₂ := ⟨j, by simpa using lj⟩) (by simp [ei, ej, e])
    simpa using this

theorem filter_mid {p : Index → Bool} {pre post : IndexSet} {s : Index} (h1 : ∀ i ∈ pre, p i = false) (h2 : p s = false) :
    (pre ++ s :: post).filter p = post.filter p := by
  rw [List.filter_append, List.filter_cons, h2, List.filter_eq_nil_iff.2 (by simpa using h1)]
  simp

theorem hasIndex_false {is : IndexSet} {i : Index} (h : ∀ j ∈ is, i.key ≠ j.key) : hasIndex is i = false := by
  rw [Bool.eq_false_iff]
  intro e
  obtain ⟨j, hj, he⟩ := List.mem_map.1 (Verif.Index.IndexSet.hasIndex_iff.1 e)
  exact h j hj he.symm

/-- The link found between neighbouring tensors, with the arrow it has on either of them. -/
theorem link_right (hn : Names lnk vs) {j : Nat} {s t : IVal} (hs : vs[j]? = some s) (ht : vs[j + 1]? = some t) {is js : IndexSet}
    (hi : IndsAt lnk vs.length j s.1 is) (hj : IndsAt lnk vs.length (j + 1) t.1 js) :
    (∃ a : Index, findIndex (commonInds is js) = .ok a ∧ a.dir = 1) ∧ ∃ a : Index, findIndex (commonInds js is) = .ok a ∧ a.dir = -1 := by
  have hl : j + 1 < vs.length := (List.getElem?_eq_some_iff.1 ht).1
  have ms := List.mem_of_getElem? hs
  have mt := List.mem_of_getElem? ht
  obtain ⟨pre, post, rfl, a0, a1, a2, a3⟩ := hi
  obtain ⟨pre', post', rfl, b0, b1, b2, b3⟩ := hj
  obtain ⟨a, k1, k2, _, rfl⟩ := a3 hl
  obtain ⟨P, l1, l2, _, rfl⟩ := b1 (by omega)
  have hst : s.1.key ≠ t.1.key := fun e => by have := hn.sites _ _ _ _ hs ht e; omega
  have hpre : ∀ i ∈ pre, 0 < j ∧ i.key = linkKey lnk j := by
    intro i h
    rcases Nat.eq_zero_or_pos j with e | e
    · rw [a0 e] at h; cases h
    · obtain ⟨Q, q1, _, _, rfl⟩ := a1 e
      simp at h; subst h; exact ⟨e, q1⟩
  have hpost : ∀ i ∈ post', j + 2 < vs.length ∧ i.key = linkKey lnk (j + 2) := by
    intro i h
    rcases Nat.lt_or_ge (j + 2) vs.length with e | e
    · obtain ⟨Q, q1, _, _, rfl⟩ := b3 e
      simp at h; subst h; exact ⟨e, q1⟩
    · rw [b2 (by omega)] at h; cases h
  constructor
  · refine ⟨a, ?_, k2⟩
    have : commonInds (pre ++ s.1 :: [a]) ([P] ++ t.1 :: post') = [a] := by
      unfold commonInds
      rw [filter_mid]
      · have : hasIndex ([P] ++ t.1 :: post') a = true := by
          rw [Verif.Index.IndexSet.hasIndex_iff, k1, ← l1]; simp [keys]
        simp only [List.filter_cons, this, List.filter_nil, if_true]
      · intro i h
        obtain ⟨e1, e2⟩ := hpre i h
        refine hasIndex_false fun x hx => ?_
        rw [e2]
        simp only [List.cons_append, List.nil_append, List.mem_cons] at hx
        rcases hx with rfl | rfl | hx
        · rw [l1]; intro e; have := hn.links _ _ e1 (by omega) (by omega) (by omega) e; omega
        · exact fun e => hn.sl t mt j e1 (by omega) e.symm
        · obtain ⟨f1, f2⟩ := hpost x hx
          rw [f2]; intro e; have := hn.links _ _ e1 (by omega) (by omega) (by omega) e; omega
      · refine hasIndex_false fun x hx => ?_
        simp only [List.cons_append, List.nil_append, List.mem_cons] at hx
        rcases hx with rfl | rfl | hx
        · rw [l1]; exact hn.sl s ms _ (by omega) (by omega)
        · exact hst
        · obtain ⟨f1, f2⟩ := hpost x hx
          rw [f2]; exact hn.sl s ms _ (by omega) (by omega)
    rw [this]; rfl
  · refine ⟨P, ?_, l2⟩
    have : commonInds ([P] ++ t.1 :: post') (pre ++ s.1 :: [a]) = [P] := by
      unfold commonInds
      have h1 : hasIndex (pre ++ s.1 :: [a]) P = true := by
        rw [Verif.Index.IndexSet.hasIndex_iff, l1, ← k1]; simp [keys]
      have hm : ∀ x ∈ pre ++ s.1 :: [a], (x ∈ pre) ∨ x = s.1 ∨ x = a := by intro x hx; simpa using hx
      have h2 : hasIndex (pre ++ s.1 :: [a]) t.1 = false := by
        refine hasIndex_false fun x hx => ?_
        rcases hm x hx with h | rfl | rfl
        · obtain ⟨f1, f2⟩ := hpre x h
          rw [f2]; exact hn.sl t mt _ (by omega) (by omega)
        · exact fun e => hst e.symm
        · rw [k1]; exact hn.sl t mt _ (by omega) (by omega)
      have h3 : post'.filter (hasIndex (pre ++ s.1 :: [a])) = [] := by
        rw [List.filter_eq_nil_iff]
        intro i hi
        obtain ⟨e1, e2⟩ := hpost i hi
        rw [hasIndex_false]
        · simp
        · intro x hx
          rw [e2]
          rcases hm x hx with h | rfl | rfl
          · obtain ⟨f1, f2⟩ := hpre x h
            rw [f2]; intro e; have := hn.links _ _ (by omega) (by omega) (by omega) (by omega) e; omega
          · exact fun e => hn.sl s ms _ (by omega) (by omega) e.symm
          · rw [k1]; intro e; have := hn.links _ _ (by omega) (by omega) (by omega) (by omega) e; omega
      simp only [List.cons_append, List.nil_append, List.filter_cons, h1, h2, h3, if_true]
      simp
    rw [this]; rfl

theorem checkRight_ok (hn : Names lnk vs) {A : List (QTensor K)} (hA : A.length = vs.length)
    (hI : ∀ j s, vs[j]? = some s → ∃ T, A[j]? = some T ∧ IndsAt lnk vs.length j s.1 T.is) :
    ∀ is : List Nat, (∀ i ∈ is, 2 ≤ i ∧ i ≤ vs.length) → checkRight A is = .ok true
  | [], _ => rfl
  | i :: is, h => by
    obtain ⟨h1, h2⟩ := h i (by simp)
    obtain ⟨j, rfl⟩ : ∃ j, i = j + 2 := ⟨i - 2, by omega⟩
    have hs0 : vs[j]? = some (vs[j]'(by omega)) := List.getElem?_eq_getElem _
    have hs1 : vs[j + 1]? = some (vs[j + 1]'(by omega)) := List.getElem?_eq_getElem _
    obtain ⟨T0, t0, i0⟩ := hI _ _ hs0
    obtain ⟨T1, t1, i1⟩ := hI _ _ hs1
    obtain ⟨_, a, a1, a2⟩ := link_right hn hs0 hs1 i0 i1
    have hl : linkTo A (j + 2) (j + 2 - 1) = .ok a := by
      unfold linkTo
      rw [show j + 2 - 1 = j + 1 by omega, show j + 1 - 1 = j by omega, t0, t1]
      exact a1
    have hr : ((if j + 2 < A.length then (linkTo A (j + 2) (j + 2 + 1)).bind fun r => .ok (r.dir == 1) else .ok true) : Res Bool) = .ok true := by
      split
      · rename_i hlt
        rw [hA] at hlt
        have hs2 : vs[j + 2]? = some (vs[j + 2]'(by omega)) := List.getElem?_eq_getElem _
        obtain ⟨T2, t2, i2⟩ := hI _ _ hs2
        obtain ⟨⟨b, b1, b2⟩, _⟩ := link_right hn hs1 hs2 i1 i2
        unfold linkTo
        rw [show j + 2 - 1 = j + 1 by omega, show j + 2 + 1 - 1 = j + 2 by omega, t1, t2]
        show (findIndex (commonInds T1.is T2.is)).bind _ = _
        rw [b1, Res.bind_ok, b2]; rfl
      · rfl
    unfold checkRight
    rw [hr, Res.bind_ok, hl, Res.bind_ok, a2]
    simpa using checkRight_ok hn hA hI is fun x hx => h x (by simp [hx])

theorem checkDivs_ok {c : Nat} : ∀ (i : Nat) {vs : List IVal} {A : List (QTensor K)}, c < i →
    List.Forall₂ (fun v T => ∃ is, Site M (fun _ => 0) v is T) vs A → checkDivs c i A = .ok true
  | _, [], [], _, _ => rfl
  | i, v :: vs, T :: A, hc, List.Forall₂.cons h hs => by
    obtain ⟨is, hT⟩ := h
    obtain ⟨q, q1, q2, q3⟩ := hT.div
    unfold checkDivs
    rw [if_neg (by omega)]
    have : ∃ d, T.store = some d := by
      cases e : T.store with
      | none => exact absurd e hT.ne
      | some d => exact ⟨d, rfl⟩
    obtain ⟨d, hd⟩ := this
    simp only [hd, q1, Res.bind_ok]
    have : q.eq QN.default = true := (Verif.QN.C07_eq_iff q2 (Verif.QN.isQN_default M)).2 fun n => by rw [q3, val_default]
    rw [this]
    simpa using checkDivs_ok (i + 1) (by omega) hs

theorem IndsAt.inds {N j : Nat} {s : Index} {is : IndexSet} (h : IndsAt lnk N j s is) (hj : j < N) :
    s ∈ is ∧ ∀ I ∈ is, I = s ∨ (qdim I = 1 ∧ ∃ i, 1 ≤ i ∧ i < N ∧ I.key = linkKey lnk i) := by
  obtain ⟨pre, post, rfl, a0, a1, a2, a3⟩ := h
  refine ⟨by simp, fun I hI => ?_⟩
  rcases List.mem_append.1 hI with h | h
  · rcases Nat.eq_zero_or_pos j with e | e
    · rw [a0 e] at h; cases h
    · obtain ⟨P, p1, _, p3, rfl⟩ := a1 e
      simp at h; subst h
      exact Or.inr ⟨p3, j, e, hj, p1⟩
  · rcases List.mem_cons.1 h with h | h
    · exact Or.inl h
    · rcases Nat.lt_or_ge (j + 1) N with e | e
      · obtain ⟨P, p1, _, p3, rfl⟩ := a3 e
        simp at h; subst h
        exact Or.inr ⟨p3, j + 1, by omega, e, p1⟩
      · rw [a2 (by omega)] at h; cases h

theorem forall₂_right {α β : Type*} {R : α → β → Prop} {l : List α} {m : List β} (h : List.Forall₂ R l m) {b : β} (hb : b ∈ m) :
    ∃ a ∈ l, R a b := by
  induction h with
  | nil => cases hb
  | cons h1 _ ih =>
    rcases List.mem_cons.1 hb with rfl | hb
    · exact ⟨_, by simp, h1⟩
    · obtain ⟨a, a1, a2⟩ := ih hb
      exact ⟨a, by simp [a1], a2⟩

theorem prod_ones {P : IVal → QTensor K → Prop} {vs : List IVal} {A : List (QTensor K)}
    (h : List.Forall₂ (fun w U => P w U ∧
      ∀ τ : Key → Nat, (∀ I ∈ U.is, τ I.key < qdim I) → eltOf U τ = if τ w.1.key = w.2 then 1 else 0) vs A)
    (τ : Key → Nat) (hτ : ∀ U ∈ A, ∀ I ∈ U.is, τ I.key < qdim I) :
    (A.map fun U => eltOf U τ).prod = if ∀ w ∈ vs, τ w.1.key = w.2 then 1 else 0 := by
  induction h with
  | nil => simp
  | @cons w U vs A h1 _ ih =>
    rw [List.map_cons, List.prod_cons, ih fun U hU => hτ U (by simp [hU]), h1.2 τ (hτ U (by simp))]
    by_cases e : τ w.1.key = w.2
    · rw [if_pos e, one_mul]
      exact if_congr (by rw [List.forall_mem_cons]; exact (and_iff_right e).symm) rfl rfl
    · rw [if_neg e, zero_mul, if_neg fun h => e (h w (by simp))]

/-- **C101 (two or more sites, with quantum numbers).** `MPS(InitState)` gives the product state: its component is 1 for
the values asked for and 0 for all others; every tensor has a single element different from zero, which is 1, so all tensors
are isometries; `totalQN` (with the limits 0 and 2 the constructor sets) is the sum of the quantum numbers of the sites, and
`checkQNs` is true. -/
theorem C101_product_state_partial (hu : u.length ≤ 4) {fuel : Nat} (hN : 2 ≤ vs.length) (hv : ∀ v ∈ vs, SiteOK M u fuel v)
    (hnd : (vs.map (·.1.key) ++ (List.range' 1 vs.length).map (linkKey lnk)).Nodup) {ext : Key → Nat} (hext : ∀ i, ext (linkKey lnk i) = 1) :
    ∃ A : List (QTensor K), initQ fuel lnk vs = some (.ok A) ∧
      List.Forall₂ (fun v T => v.1 ∈ T.is ∧ (∀ I ∈ T.is, I = v.1 ∨ qdim I = 1) ∧ ∀ τ : Key → Nat, (∀ I ∈ T.is, τ I.key < qdim I) →
        eltOf T τ = if τ v.1.key = v.2 then 1 else 0) vs A ∧
      (∀ σ : Key → Nat, (∀ v ∈ vs, σ v.1.key < qdim v.1) →
        sumOver ext ((List.range' 1 (vs.length - 1)).map (linkKey lnk)) (fun τ => (A.map fun T => eltOf T τ).prod) σ =
          if ∀ v ∈ vs, σ v.1.key = v.2 then 1 else 0) ∧
      (∃ q, totalQN A 0 2 = .ok q ∧ ∀ n, q.val n = norm (M n) (vs.map fun v => (sectorQN v.1.qns v.2).val n).sum) ∧
      checkQNs A = .ok true := by
  have hn := names_of hnd
  rcases vs with _ | ⟨v, _ | ⟨v', vs⟩⟩
  · simp at hN
  · simp at hN
  have hv1 := hv v (by simp)
  obtain ⟨q0, a1, a2, a3⟩ := leftQN_ok hu hv (qok_default (M := M) (u := u))
  have hq0 : ∀ n, q0.val n = norm (M n) (qsum (v :: v' :: vs) n) := fun n => by rw [a3, val_default, zero_add]
  obtain ⟨h1, h2⟩ := ivQN_ok hv1
  obtain ⟨h3, h4⟩ := nextQN_ok hu a2 h2
  have hs' : ∀ n, (nextQN q0 (siteQN v)).val n = norm (M n) (qsum (v' :: vs) n) := by
    intro n
    rw [h4, hq0, Int.sub_eq_add_neg, norm_add_norm_left]
    simp only [qsum, List.map_cons, List.sum_cons]
    congr 1; ring
  have hsub : ((v' :: vs).map (·.1.key) ++ (List.range' 1 ((v' :: vs).length + 1)).map (linkKey lnk)).Nodup := by
    refine List.Nodup.sublist ?_ hnd
    simp only [List.map_cons, List.cons_append, List.length_cons]
    exact List.Sublist.cons _ (List.Sublist.refl _)
  obtain ⟨qs, r1, r2, A, r3, r4, r5⟩ := rest_ok (K := K) hu lnk (vs := v' :: vs) (k := 1) (q := nextQN q0 (siteQN v)) (by simp)
    (fun w hw => hv w (by simp only [List.mem_cons] at hw ⊢; tauto)) h3 hs' hsub
  obtain ⟨T, t1, t2⟩ := site_mk (K := K) hu hv1 (w := [v, (lk lnk 1 (nextQN q0 (siteQN v)), 0)])
    (by
      intro x hx
      simp only [List.mem_cons, List.not_mem_nil, or_false] at hx
      rcases hx with rfl | rfl
      · exact Or.inl rfl
      · exact Or.inr (isLink_lk lnk 1 h3))
    (by simp) (by
      simp only [keys, List.map_cons, List.map_nil, List.nodup_cons, lk_key, List.mem_cons, List.not_mem_nil]
      simp only [or_false, not_false_eq_true, List.nodup_nil, and_true]
      exact hn.sl v (by simp) 1 (by omega) (by simp))
    (by simp [nb, Index.nblock, lk])
  have hrun : initQ fuel lnk (v :: v' :: vs) = some (.ok (T :: A)) := by
    unfold initQ
    rw [a1, Run.bind_ok]
    have : linkQNs q0 (v :: v' :: vs) = .ok (nextQN q0 (siteQN v) :: qs) := by rw [linkQNs, h1, Res.bind_ok, r1]; rfl
    rw [this, Run.bind_ok]
    simp only [qnLinks]
    have e1 : setEltQ fuel [v, ((⟨(lnk 1).1, 1, 1, (lnk 1).2, [(nextQN q0 (siteQN v), 1)]⟩ : Index), 0)] = some (.ok T) := t1
    have e2 : setAllQ fuel (restVals (⟨(lnk 1).1, 1, 1, (lnk 1).2, [(nextQN q0 (siteQN v), 1)]⟩ : Index) (v' :: vs)
        (qnLinks lnk (1 + 1) qs)) = some (.ok A) := r3
    rw [e1, Run.bind_ok, e2, Run.bind_ok]
  have hlen : (v' :: vs).length = A.length := r4.length_eq
  have hI : ∀ j s, (v :: v' :: vs)[j]? = some s → ∃ U, (T :: A)[j]? = some U ∧ IndsAt lnk (v :: v' :: vs).length j s.1 U.is := by
    intro j s hj
    rcases j with _ | j
    · simp at hj; subst hj
      refine ⟨T, rfl, [], [lk lnk 1 (nextQN q0 (siteQN v))], by rw [t2.inds]; rfl, fun _ => rfl, by omega, by simp,
        fun _ => ⟨_, lk_key lnk 1 _, rfl, rfl, rfl⟩⟩
    · simp only [List.getElem?_cons_succ] at hj ⊢
      obtain ⟨is, g1, g2⟩ := restInds_get lnk (v' :: vs) (lk lnk 1 (nextQN q0 (siteQN v))) qs 1 (v :: v' :: vs).length (by omega)
        (by simp only [List.length_cons]; omega) r2 (lk_key lnk 1 _) rfl rfl j s hj
      rw [← r5, List.getElem?_map] at g1
      obtain ⟨U, u1, u2⟩ := Option.map_eq_some_iff.1 g1
      exact ⟨U, u1, by rw [u2, show j + 1 = 1 + j by omega]; exact g2⟩
  have hF : List.Forall₂ (fun w U => ∃ f, Site M f w U.is U) (v :: v' :: vs) (T :: A) := by
    refine List.Forall₂.cons ⟨_, t2.inds.symm ▸ t2⟩ (r4.imp fun w U h => ?_)
    obtain ⟨is, hS⟩ := h
    exact ⟨_, hS.inds.symm ▸ hS⟩
  have hF2 : List.Forall₂ (fun w U => (w.1 ∈ U.is ∧ ∀ I ∈ U.is, I = w.1 ∨ (qdim I = 1 ∧ ∃ i, 1 ≤ i ∧ i < (v :: v' :: vs).length ∧ I.key = linkKey lnk i)) ∧
      ∀ τ : Key → Nat, (∀ I ∈ U.is, τ I.key < qdim I) → eltOf U τ = if τ w.1.key = w.2 then 1 else 0) (v :: v' :: vs) (T :: A) := by
    rw [List.forall₂_iff_get] at hF ⊢
    refine ⟨hF.1, fun i hi hi' => ?_⟩
    obtain ⟨f, hS⟩ := hF.2 i hi hi'
    refine ⟨?_, hS.elt⟩
    obtain ⟨U, u1, u2⟩ := hI i _ (List.getElem?_eq_getElem hi)
    have : U = (T :: A).get ⟨i, hi'⟩ := by
      rw [List.getElem?_eq_getElem hi'] at u1
      exact (Option.some.inj u1).symm
    subst this
    exact u2.inds hi
  have hprod : ∀ τ : Key → Nat, (∀ U ∈ T :: A, ∀ I ∈ U.is, τ I.key < qdim I) →
      ((T :: A).map fun U => eltOf U τ).prod = if ∀ w ∈ v :: v' :: vs, τ w.1.key = w.2 then 1 else 0 :=
    fun τ hτ => prod_ones hF2 τ hτ
  refine ⟨T :: A, hrun, hF2.imp fun w U h => ⟨h.1.1, fun I hI => (h.1.2 I hI).imp_right (·.1), h.2⟩, ?_, ?_, ?_⟩
  · intro σ hσ
    rw [sumOver_ones _ _ _ fun k hk => by obtain ⟨i, _, rfl⟩ := List.mem_map.1 hk; exact hext i]
    have hσk : ∀ w ∈ v :: v' :: vs, w.1.key ∉ (List.range' 1 ((v :: v' :: vs).length - 1)).map (linkKey lnk) := by
      intro w hw hm
      obtain ⟨i, i1, i2⟩ := List.mem_map.1 hm
      have := List.mem_range'_1.1 i1
      exact hn.sl w hw i (by omega) (by omega) i2.symm
    rw [hprod]
    · refine if_congr (forall₂_congr fun w hw => ?_) rfl rfl
      rw [if_neg (hσk w hw)]
    · intro U hU I hIU
      obtain ⟨w, hw, hR⟩ := forall₂_right hF2 hU
      rcases hR.1.2 I hIU with rfl | ⟨e1, i, i1, i2, i3⟩
      · rw [if_neg (hσk w hw)]; exact hσ w hw
      · rw [if_pos, e1]
        · exact Nat.one_pos
        · rw [i3]; exact List.mem_map_of_mem (List.mem_range'_1.2 ⟨i1, by omega⟩)
  · obtain ⟨q, q1, q2, q3⟩ := t2.div
    obtain ⟨b1, b2⟩ := Verif.QN.C06_add_zero q2
    refine ⟨q, ?_, fun n => ?_⟩
    · simp only [totalQN, List.drop_zero, Nat.sub_zero, List.take_succ_cons, List.take_zero]
      simp [Res.foldM, q1, b2]
    · rw [q3]
      simp only [List.map_cons, List.map_nil, List.sum_cons, List.sum_nil, sector_lk]
      rw [hv1.dir, h4, show (lk lnk 1 (nextQN q0 (siteQN v))).dir = 1 from rfl]
      rw [show (sectorQN v.1.qns v.2).val n * 1 + (norm (M n) (q0.val n - (siteQN v).val n) * 1 + 0) =
        (siteQN v).val n + norm (M n) (q0.val n - (siteQN v).val n) by simp only [siteQN]; ring, norm_add_norm_right]
      rw [show (siteQN v).val n + (q0.val n - (siteQN v).val n) = q0.val n by ring, a2.val_norm, hq0]
      simp [qsum, siteQN]
  · have hc : findCenter 1 (T :: A) = .ok (some 1) := by
      simp [findCenter, t2.inds, hv1.dir, lk]
    unfold checkQNs
    rw [hc, Res.bind_ok]
    have hd : checkDivs 1 1 (T :: A) = .ok true := by
      unfold checkDivs
      rw [if_pos rfl]
      exact checkDivs_ok 2 (by omega) r4
    have hr := checkRight_ok (K := K) hn (A := T :: A) (by simp [← hlen]) hI (List.range' (1 + 1) ((T :: A).length - 1)).reverse (by
      intro i hi
      have := List.mem_range'_1.1 (List.mem_reverse.1 hi)
      simp only [List.length_cons] at this hlen ⊢
      omega)
    show (checkDivs 1 1 (T :: A)).bind _ = _
    rw [hd, Res.bind_ok]
    simpa [checkLeft] using hr

end

end

end Verif.MPS
