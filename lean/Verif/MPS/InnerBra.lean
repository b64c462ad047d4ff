import Verif.MPS.InnerLemmas

/-! # The renamed bra of an inner product -/

namespace Verif.MPS

open Verif.Tensor Verif.Index Verif.Index.IndexSet Verif.Net

variable {K : Type*} [CommRing K] [DecidableEq K]

/-- A chain of dense tensors with site indices `S[n]` and links `l`. -/
structure IsChain (ext : Key → Nat) (A : List (DTensor K)) (S : List (List Key)) (l : List Key) : Prop where
  shape : Shape none (A.map (keys ·.is)) S l
  nodup : (S.flatten ++ l).Nodup
  ok : ∀ T ∈ A, T.OK ext
  plain : ∀ T ∈ A, ∀ i ∈ T.is, Plain i

theorem flatten_single (s : List Key) : (s.map fun k => [k]).flatten = s := by
  induction s with
  | nil => rfl
  | cons a s ih => simp [ih]

/-- A matrix product state with site indices `s` and links `l`. -/
abbrev IsMPS (ext : Key → Nat) (A : List (DTensor K)) (s l : List Key) : Prop := IsChain ext A (s.map fun k => [k]) l

theorem Shape.map (ren : Key → Key) {left : Option Key} {M S : List (List Key)} {l : List Key} (h : Shape left M S l) :
    Shape (left.map ren) (M.map (·.map ren)) (S.map (·.map ren)) (l.map ren) := by
  refine Shape.chain (motive := fun left M S l =>
    Shape (left.map ren) (M.map (·.map ren)) (S.map (·.map ren)) (l.map ren)) ?_ ?_ M left S l h
  · intro left T S hT k
    simp only [List.mem_map, hT, Option.map_eq_some_iff]
    constructor
    · rintro ⟨a, h | h, rfl⟩
      · exact Or.inl ⟨a, h, rfl⟩
      · exact Or.inr ⟨a, h, rfl⟩
    · rintro (⟨a, h, rfl⟩ | ⟨a, h, rfl⟩)
      · exact ⟨a, Or.inl h, rfl⟩
      · exact ⟨a, Or.inr h, rfl⟩
  · intro left T U Ts S Ss l ls hT _ ih
    refine ⟨fun k => ?_, ih⟩
    simp only [List.mem_map, hT, Option.map_eq_some_iff]
    constructor
    · rintro ⟨a, h | h | h, rfl⟩
      · exact Or.inl ⟨a, h, rfl⟩
      · exact Or.inr (Or.inl ⟨a, h, rfl⟩)
      · exact Or.inr (Or.inr (by rw [h]))
    · rintro (⟨a, h, rfl⟩ | ⟨a, h, rfl⟩ | rfl)
      · exact ⟨a, Or.inl h, rfl⟩
      · exact ⟨a, Or.inr (Or.inl h), rfl⟩
      · exact ⟨l, Or.inr (Or.inr rfl), rfl⟩

/-- The names on a chain. -/
theorem Shape.names {left : Option Key} {M S : List (List Key)} {l : List Key} (h : Shape left M S l) :
    M.length = S.length ∧ M.length = l.length + 1 ∧
    ∀ n (h1 : n < M.length) (h2 : n < S.length), ∀ k ∈ M[n], k ∈ S[n] ∨ k ∈ l ∨ left = some k := by
  refine Shape.chain (motive := fun left M S l => M.length = S.length ∧ M.length = l.length + 1 ∧
    ∀ n (h1 : n < M.length) (h2 : n < S.length), ∀ k ∈ M[n], k ∈ S[n] ∨ k ∈ l ∨ left = some k) ?_ ?_ M left S l h
  · intro left T S hT
    refine ⟨rfl, rfl, fun n h1 h2 k hk => ?_⟩
    have : n = 0 := by simp at h1; omega
    subst this
    simp only [List.getElem_cons_zero, hT] at hk ⊢
    tauto
  · intro left T U Ts S Ss l ls hT _ ih
    refine ⟨by simp only [List.length_cons] at ih ⊢; omega, by simp only [List.length_cons] at ih ⊢; omega, ?_⟩
    intro n h1 h2 k hk
    rcases n with _ | n
    · simp only [List.getElem_cons_zero, hT] at hk ⊢
      simp only [List.mem_cons]
      tauto
    · simp only [List.getElem_cons_succ] at hk ⊢
      rcases ih.2.2 n (by simpa using h1) (by simpa using h2) k hk with h | h | h
      · exact Or.inl h
      · exact Or.inr (Or.inl (by simp [h]))
      · cases h; exact Or.inr (Or.inl (by simp))

omit [CommRing K] [DecidableEq K] in
theorem IsChain.mem_names {ext : Key → Nat} {A : List (DTensor K)} {S : List (List Key)} {l : List Key}
    (h : IsChain ext A S l) {T : DTensor K} (hT : T ∈ A) {i : Index} (hi : i ∈ T.is) :
    i.key ∈ S.flatten ++ l := by
  obtain ⟨n, hn, rfl⟩ := List.mem_iff_getElem.1 hT
  obtain ⟨h1, _, h3⟩ := h.shape.names
  have hk : i.key ∈ (A.map (keys ·.is))[n]'(by simpa using hn) := by
    simp only [List.getElem_map]; exact List.mem_map_of_mem hi
  have hS : n < S.length := by simp at h1; omega
  rcases h3 n (by simpa using hn) hS _ hk with h | h | h
  · exact List.mem_append_left _ (List.mem_flatten.2 ⟨_, List.getElem_mem _, h⟩)
  · exact List.mem_append_right _ h
  · cases h

omit [CommRing K] [DecidableEq K] in
theorem Renamed.congr {ren ren' : Key → Key} {c : K → K} {T U : DTensor K} (h : Renamed ren c T U)
    (e : ∀ i ∈ T.is, ren i.key = ren' i.key) : Renamed ren' c T U := by
  obtain ⟨f, f1, f2, f3⟩ := h
  exact ⟨f, f1, f2, fun i hi => ⟨by rw [(f3 i hi).1, e i hi], (f3 i hi).2⟩⟩

omit [CommRing K] [DecidableEq K] in
theorem Renamed.self {ren : Key → Key} {T : DTensor K} (h : ∀ i ∈ T.is, Plain i) (e : ∀ i ∈ T.is, ren i.key = i.key) :
    Renamed ren id T T := ⟨id, by simp, fun _ => rfl, fun i hi => ⟨(e i hi).symm, rfl, h i hi⟩⟩

omit [CommRing K] [DecidableEq K] in
theorem Renamed.ok {ext : Key → Nat} {ren : Key → Key} {c : K → K} {T U : DTensor K} (h : Renamed ren c T U)
    (hT : T.OK ext) (hinj : ∀ i ∈ T.is, ∀ j ∈ T.is, ren i.key = ren j.key → i.key = j.key)
    (he : ∀ i ∈ T.is, ext (ren i.key) = ext i.key) : U.OK ext := by
  have hk := h.keys
  have hp := h.plain
  obtain ⟨f, f1, _, f3⟩ := h
  refine ⟨?_, ?_, ?_, fun i hi => (hp i hi).qns⟩
  · rw [hk]
    refine hT.nodup.map_on ?_
    intro a ha b hb e
    obtain ⟨i, hi, rfl⟩ := List.mem_map.1 ha
    obtain ⟨j, hj, rfl⟩ := List.mem_map.1 hb
    exact hinj i hi j hj e
  · intro i hi
    rw [f1] at hi
    obtain ⟨j, hj, rfl⟩ := List.mem_map.1 hi
    obtain ⟨a1, a2, _⟩ := f3 j hj
    rw [a2, a1, he j hj, hT.dims j hj]
  · intro i hi
    rw [f1] at hi
    obtain ⟨j, hj, rfl⟩ := List.mem_map.1 hi
    rw [(f3 j hj).2.1]; exact hT.pos j hj

omit [CommRing K] [DecidableEq K] in
theorem forall₂_mem {α β : Type*} {R : α → β → Prop} {A : List α} {B : List β} (h : List.Forall₂ R A B) :
    ∀ b ∈ B, ∃ a ∈ A, R a b := by
  induction h with
  | nil => simp
  | cons h1 _ ih =>
    intro b hb
    rcases List.mem_cons.1 hb with rfl | hb
    · exact ⟨_, by simp, h1⟩
    · obtain ⟨a, ha, hab⟩ := ih b hb; exact ⟨a, by simp [ha], hab⟩

omit [CommRing K] [DecidableEq K] in
/-- A renamed chain is a chain. -/
theorem IsChain.renamed {ext : Key → Nat} {A B : List (DTensor K)} {S : List (List Key)} {l : List Key} {ren : Key → Key}
    {c : K → K} (h : IsChain ext A S l) (hr : List.Forall₂ (Renamed ren c) A B)
    (hnd : ((S.map (·.map ren)).flatten ++ l.map ren).Nodup) (he : ∀ k ∈ S.flatten ++ l, ext (ren k) = ext k) :
    IsChain ext B (S.map (·.map ren)) (l.map ren) := by
  have hkeys : B.map (keys ·.is) = (A.map (keys ·.is)).map (·.map ren) := by
    clear h
    induction hr with
    | nil => rfl
    | cons h1 _ ih => simp only [List.map_cons, ih, h1.keys]
  have hnd' : ((S.flatten ++ l).map ren).Nodup := by
    rw [List.map_append, List.map_flatten]; exact hnd
  have hinj := List.inj_on_of_nodup_map hnd'
  refine ⟨?_, hnd, ?_, ?_⟩
  · rw [hkeys]; exact h.shape.map ren
  · intro U hU
    obtain ⟨T, hT, hTU⟩ := forall₂_mem hr U hU
    exact hTU.ok (h.ok T hT) (fun i hi j hj e => hinj (h.mem_names hT hi) (h.mem_names hT hj) e)
      fun i hi => he _ (h.mem_names hT hi)
  · intro U hU
    obtain ⟨T, _, hTU⟩ := forall₂_mem hr U hU
    exact hTU.plain

theorem pick_single : ∀ s : List Key, Pick (s.map fun k => [k]) [] s := by
  intro s
  induction s with
  | nil => exact trivial
  | cons a s ih => exact ⟨fun k => by simp [keys], by simpa using ih⟩

omit [CommRing K] [DecidableEq K] in
theorem match_of {ren : Key → Key} {ext : Key → Nat} : ∀ {sx sites : IndexSet}, keys sites = (keys sx).map ren →
    sites.map (·.dim) = (keys sx).map ext → (∀ i ∈ sx, i.id ≠ 0) → (∀ i ∈ sites, Plain i) →
    List.Forall₂ (Match ren ext) sx sites := by
  intro sx
  induction sx with
  | nil => intro sites h _ _ _; have : sites = [] := by simpa [keys] using h
           subst this; exact .nil
  | cons a as ih =>
    intro sites h1 h2 h3 h4
    rcases sites with _ | ⟨b, bs⟩
    · simp [keys] at h1
    simp only [keys, List.map_cons, List.cons.injEq] at h1 h2
    exact .cons ⟨h1.1, h2.1, h3 a (by simp), h4 b (by simp)⟩
      (ih h1.2 h2.2 (fun i hi => h3 i (by simp [hi])) fun i hi => h4 i (by simp [hi]))

theorem siteInds_mps {ext : Key → Nat} {x : List (DTensor K)} {s l : List Key} (h : IsMPS ext x s l) :
    ∃ sx, siteIndsFrom [] x [] = .ok sx ∧ keys sx = s ∧ ∀ i ∈ sx, ∃ T ∈ x, i ∈ T.is :=
  siteIndsFrom_spec h.shape h.nodup (by simp) (by simp [keys]) (fun T hT => (h.ok T hT).nodup) (pick_single s)

/-- `replaceSiteInds` renames the site indices. -/
theorem replaceSiteInds_spec {ext : Key → Nat} {x : List (DTensor K)} {s l : List Key} (h : IsMPS ext x s l)
    {sites : IndexSet} {ren : Key → Key} (hk : keys sites = s.map ren) (hd : sites.map (·.dim) = s.map ext)
    (hp : ∀ i ∈ sites, Plain i) (hl : ∀ k ∈ l, ren k = k) (hnd : (keys sites).Nodup) :
    ∃ B, replaceSiteInds x sites = .ok B ∧ List.Forall₂ (Renamed ren id) x B := by
  obtain ⟨sx, e1, k1, m1⟩ := siteInds_mps h
  obtain ⟨n1, n2, n3⟩ := h.shape.names
  have hs : (s.map fun k => [k]).flatten = s := flatten_single s
  have hlen : sites.length = x.length := by
    have : (keys sites).length = s.length := by rw [hk]; simp
    simp [keys] at this n1
    omega
  have hsxid : ∀ i ∈ sx, i.id ≠ 0 := by
    intro i hi
    obtain ⟨T, hT, hiT⟩ := m1 i hi
    exact (h.plain T hT i hiT).id
  unfold replaceSiteInds
  rw [if_neg (by simp [hlen]), e1]
  simp only [Res.bind]
  have hsn : s.Nodup := by
    have := h.nodup; rw [hs] at this; exact (List.nodup_append.1 this).1
  by_cases he : equals sx sites = true
  · rw [if_pos he]
    have hke : keys sx = keys sites := ((C11_same sx sites (by rw [k1]; exact hsn) hnd).2.1).1 he
    have hfix : ∀ k ∈ s, ren k = k := by
      rw [k1, hk] at hke
      intro k hk'
      obtain ⟨n, hn, rfl⟩ := List.mem_iff_getElem.1 hk'
      have := congrArg (fun y => y[n]?) hke
      simp [hn] at this
      exact this.symm
    refine ⟨x, rfl, ?_⟩
    rw [List.forall₂_same]
    intro T hT
    refine Renamed.self (h.plain T hT) fun i hi => ?_
    have := h.mem_names hT hi
    rw [hs] at this
    rcases List.mem_append.1 this with h' | h'
    · exact hfix _ h'
    · exact hl _ h'
  · rw [if_neg he]
    have hxs : x.length = sx.length := by
      have : (keys sx).length = s.length := by rw [k1]
      simp [keys] at this n1
      omega
    refine replaceSites_spec x sx sites hxs (match_of (by rw [hk, k1]) (by rw [hd, k1]) hsxid hp)
      (fun T hT => ⟨h.ok T hT, h.plain T hT⟩) ?_
    intro n hn hn' k hk' hne
    have hsl : n < s.length := by simp at n1; omega
    have hks : sx[n].key = s[n] := by
      have := congrArg (fun y => y[n]?) k1
      simp [keys, hn', hsl] at this
      exact this
    rcases n3 n (by simpa using hn) (by simpa using hsl) k (by simpa using hk') with h' | h' | h'
    · simp only [List.getElem_map, List.mem_singleton] at h'
      exact absurd (h'.trans hks.symm) hne
    · exact hl k h'
    · cases h'

/-- The identity of the index made by `sim`. -/
def simKey (newid : Key → Nat) (k : Key) : Key := (newid k, k.2)

omit [CommRing K] [DecidableEq K] in
theorem sim_key (newid : Key → Nat) (i : Index) : (sim newid i).key = simKey newid i.key := rfl

/-- `replaceLinkInds(f(linkInds(x)))` gives the links the new names. -/
theorem replaceLinkInds_map {ext : Key → Nat} {x : List (DTensor K)} {S : List (List Key)} {l : List Key}
    (h : IsChain ext x S l) (f : Index → Index) {ren : Key → Key} (hS : ∀ k ∈ S.flatten, ren k = k)
    (hf : ∀ i, Plain i → i.key ∈ l → (f i).key = ren i.key ∧ (f i).dim = i.dim ∧ Plain (f i)) (hnd : (l.map ren).Nodup) :
    ∃ lx, linkInds x = .ok lx ∧ keys lx = l ∧ (∀ i ∈ lx, ∃ T ∈ x, i ∈ T.is) ∧
      ∃ B, replaceLinkInds x (lx.map f) = .ok B ∧ List.Forall₂ (Renamed ren id) x B := by
  obtain ⟨lx, e1, k1, m1⟩ := linkInds_spec h.shape h.nodup (by simp) (fun T hT => (h.ok T hT).nodup)
    (fun T hT i hi => (h.plain T hT i hi).id)
  obtain ⟨n1, n2, n3⟩ := h.shape.names
  refine ⟨lx, e1, k1, m1, ?_⟩
  have hlx : ∀ i ∈ lx, Plain i ∧ i.key ∈ l := by
    intro i hi
    obtain ⟨T, hT, hiT⟩ := m1 i hi
    exact ⟨h.plain T hT i hiT, by rw [← k1]; exact List.mem_map_of_mem hi⟩
  have hself : (∀ k ∈ l, ren k = k) → List.Forall₂ (Renamed ren id) x x := by
    intro hfix
    rw [List.forall₂_same]
    intro T hT
    refine Renamed.self (h.plain T hT) fun i hi => ?_
    rcases List.mem_append.1 (h.mem_names hT hi) with h' | h'
    · exact hS _ h'
    · exact hfix _ h'
  unfold replaceLinkInds
  by_cases hx1 : x.length = 1
  · rw [if_pos hx1]
    have : l = [] := by simp [hx1] at n2; exact n2
    exact ⟨x, rfl, hself (by simp [this])⟩
  rw [if_neg hx1]
  have hlen : lx.length = x.length - 1 := by
    have : (keys lx).length = l.length := by rw [k1]
    simp [keys] at this n2
    omega
  rw [if_neg (by simp [hlen]), e1]
  simp only [Res.bind]
  have hksim : keys (lx.map f) = l.map ren := by
    rw [← k1]
    simp only [keys, List.map_map]
    apply List.map_congr_left
    intro i hi
    exact (hf i (hlx i hi).1 (hlx i hi).2).1
  have hln : l.Nodup := (List.nodup_append.1 h.nodup).2.1
  by_cases he : equals lx (lx.map f) = true
  · rw [if_pos he]
    have hke := ((C11_same lx _ (by rw [k1]; exact hln) (by rw [hksim]; exact hnd)).2.1).1 he
    rw [k1, hksim] at hke
    refine ⟨x, rfl, hself ?_⟩
    intro k hk'
    obtain ⟨n, hn, rfl⟩ := List.mem_iff_getElem.1 hk'
    have := congrArg (fun y => y[n]?) hke
    simp [hn] at this
    exact this.symm
  · rw [if_neg he]
    refine replaceLinks_spec h.shape k1 (match_of (ext := ext) (by rw [hksim, k1]) ?_ ?_ ?_) (Or.inl ⟨rfl, rfl, rfl⟩) hS
      (fun T hT => ⟨h.ok T hT, h.plain T hT⟩) (by rw [List.nil_append, hksim]; exact hnd)
    · simp only [keys, List.map_map]
      apply List.map_congr_left
      intro i hi
      obtain ⟨T, hT, hiT⟩ := m1 i hi
      simp only [Function.comp]
      rw [(hf i (hlx i hi).1 (hlx i hi).2).2.1]
      exact (h.ok T hT).dims i hiT
    · intro i hi
      exact (hlx i hi).1.id
    · intro i hi
      obtain ⟨j, hj, rfl⟩ := List.mem_map.1 hi
      exact (hf j (hlx j hj).1 (hlx j hj).2).2.2

/-- `replaceLinkInds(sim(linkInds(x)))` gives the links the new names. -/
theorem freshLinks_spec {ext : Key → Nat} {x : List (DTensor K)} {S : List (List Key)} {l : List Key}
    (h : IsChain ext x S l) {newid : Key → Nat} {ren : Key → Key} (hS : ∀ k ∈ S.flatten, ren k = k)
    (hl : ∀ k ∈ l, ren k = simKey newid k) (h0 : ∀ k ∈ l, newid k ≠ 0) (hnd : (l.map ren).Nodup) :
    ∃ B, freshLinks newid x = .ok B ∧ List.Forall₂ (Renamed ren id) x B := by
  obtain ⟨lx, e1, _, _, B, e2, hB⟩ := replaceLinkInds_map h (sim newid) hS (fun i hp hi =>
    ⟨by rw [sim_key, hl _ hi], rfl, ⟨hp.dir, h0 _ hi, hp.qns, hp.lo, hp.hi⟩⟩) hnd
  exact ⟨B, by rw [freshLinks, e1]; exact e2, hB⟩

omit [CommRing K] [DecidableEq K] in
theorem forall₂_trans {α β γ : Type*} {R : α → β → Prop} {Q : β → γ → Prop} {P : α → γ → Prop}
    (hPQ : ∀ a b c, R a b → Q b c → P a c) {A : List α} {B : List β} (h : List.Forall₂ R A B) :
    ∀ {C : List γ}, List.Forall₂ Q B C → List.Forall₂ P A C := by
  induction h with
  | nil => intro C h; cases h; exact .nil
  | cons h1 _ ih => intro C h; cases h with | cons h2 h3 => exact .cons (hPQ _ _ _ h1 h2) (ih h3)

omit [CommRing K] [DecidableEq K] in
theorem forall₂_imp_mem {α β : Type*} {R Q : α → β → Prop} {A : List α} {B : List β} (h : List.Forall₂ R A B)
    (hRQ : ∀ a ∈ A, ∀ b, R a b → Q a b) : List.Forall₂ Q A B := by
  induction h with
  | nil => exact .nil
  | cons h1 _ ih => exact .cons (hRQ _ (by simp) _ h1) (ih fun a ha b => hRQ a (by simp [ha]) b)

theorem exists_ren (g : Key → Key) : ∀ {s s' : List Key}, s.Nodup → s.length = s'.length →
    ∃ ren : Key → Key, s.map ren = s' ∧ ∀ k, k ∉ s → ren k = g k := by
  intro s
  induction s with
  | nil => intro s' _ h; exact ⟨g, by simpa using (List.eq_nil_of_length_eq_zero h.symm).symm, fun _ _ => rfl⟩
  | cons a s ih =>
    intro s' hnd hlen
    rcases s' with _ | ⟨b, s'⟩
    · simp at hlen
    obtain ⟨ren, h1, h2⟩ := ih (List.nodup_cons.1 hnd).2 (by simpa using hlen)
    refine ⟨Function.update ren a b, ?_, fun k hk => ?_⟩
    · simp only [List.map_cons, Function.update_self, List.cons.injEq, true_and]
      rw [← h1]
      apply List.map_congr_left
      intro k hk
      rw [Function.update_of_ne]
      rintro rfl
      exact (List.nodup_cons.1 hnd).1 hk
    · simp only [List.mem_cons, not_or] at hk
      rw [Function.update_of_ne hk.1, h2 k hk.2]

end Verif.MPS
