import Verif.MPS.SumProps
import Verif.MPS.InnerEx
import Mathlib.Algebra.BigOperators.Intervals

/-! # Sums of matrix product states -/

namespace Verif.MPS

open Verif.Tensor Verif.Index Verif.Index.IndexSet Verif.Net Finset

variable {K : Type*} [CommRing K] [DecidableEq K]

/-! ## The chain which the loop builds -/

/-- The tensors which replace the links `a.x` and `b.x` of the two operands. -/
structure BondRel (ext : Key → Nat) (t : Bond K) (ab : Lk × Lk) : Prop where
  first : IsBlock ext t.first ab.1.x ab.1.q ab.1.lo
  second : IsBlock ext t.second ab.2.x ab.2.q ab.2.lo
  q : ab.1.q = ab.2.q
  lo1 : ab.1.lo = 0
  lo2 : ab.2.lo = ext ab.1.x
  sum : ext ab.1.q = ext ab.1.x + ext ab.2.x
  plain : ∀ i ∈ t.first.is, Plain i

/-- All names on one operand and the result. -/
def names (p : Option Lk) (S : List (List Key)) (as : List Lk) : List Key :=
  S.flatten ++ ((p.map (·.x)).toList ++ as.map (·.x)) ++ ((p.map (·.q)).toList ++ as.map (·.q))

theorem names_tail {p : Option Lk} {S : List Key} {Ss : List (List Key)} {a : Lk} {as : List Lk} (h : (names p (S :: Ss) (a :: as)).Nodup) :
    (names (some a) Ss as).Nodup := by
  refine h.sublist ?_
  simp only [names, List.flatten_cons, Option.map_some, Option.toList_some, List.map_cons, List.singleton_append]
  refine List.Sublist.append (List.Sublist.append (List.sublist_append_right _ _) (List.sublist_append_right _ _)) (List.sublist_append_right _ _)

/-- The sum of two chains, site by site. -/
inductive SumRel (ext : Key → Nat) : Option Lk → Option Lk → List (DTensor K) → List (DTensor K) → List (DTensor K) →
    List (List Key) → List (Lk × Lk) → Prop
  | one {pa pb A B M S} : SiteSpec ext S pa none pb none A B M → SumRel ext pa pb [A] [B] [M] [S] []
  | cons {pa pb A B M S a b As Bs Ms Ss ab} : SiteSpec ext S pa (some a) pb (some b) A B M →
      SumRel ext (some a) (some b) As Bs Ms Ss ab → SumRel ext pa pb (A :: As) (B :: Bs) (M :: Ms) (S :: Ss) ((a, b) :: ab)

theorem apart_of {p : Option Lk} {S : List Key} {Ss : List (List Key)} {a : Lk} {as : List Lk}
    (h : (names p (S :: Ss) (a :: as)).Nodup) : Apart S p (some a) := by
  simp only [names, List.nodup_append, List.flatten_cons, List.map_cons, List.mem_append, List.mem_cons, Option.mem_toList,
    Option.mem_def, List.nodup_cons] at h
  refine ⟨?_, ?_, ?_⟩
  · rintro b rfl
    simp only [Option.map_some, Option.some.injEq] at h
    refine ⟨fun h' => ?_, fun h' => ?_, ?_⟩ <;> grind
  · rintro b hb
    cases hb
    refine ⟨fun h' => ?_, fun h' => ?_, ?_⟩ <;> grind
  · rintro b rfl c hc
    cases hc
    simp only [Option.map_some, Option.some.injEq] at h
    refine ⟨?_, ?_, ?_, ?_⟩ <;> grind

theorem apart_last {p : Option Lk} {S : List Key} (h : (names p [S] []).Nodup) : Apart S p none := by
  simp only [names, List.nodup_append, List.flatten_cons, List.flatten_nil, List.map_nil, List.append_nil, List.mem_append, Option.mem_toList,
    Option.mem_def] at h
  refine ⟨?_, by simp, by simp⟩
  rintro b rfl
  simp only [Option.map_some, Option.some.injEq] at h
  refine ⟨fun h' => ?_, fun h' => ?_, ?_⟩ <;> grind

omit [CommRing K] [DecidableEq K] in
theorem length_site {c : Nat} {S : List Key} {l r : Option Key} {A : DTensor K} (hnd : (keys A.is).Nodup)
    (kA : ∀ k, k ∈ keys A.is ↔ k ∈ S ∨ l = some k ∨ r = some k) (hc : S.length + 2 ≤ c) : A.is.length ≤ c := by
  have hl : ∀ o : Option Key, o.toList.length ≤ 1 := by rintro (_ | _) <;> simp
  have h1 : (keys A.is).length ≤ c := by
    refine length_le_of hnd (L := S ++ (l.toList ++ r.toList)) ?_ ?_
    · intro k hk
      rw [kA] at hk
      simpa using hk
    · have := hl l; have := hl r
      simp only [List.length_append]; omega
  simpa [keys] using h1

/-- The loop runs to the end. -/
theorem sumSites_ok {ext : Key → Nat} {d c fuel : Nat} (hF : Fits ext d c fuel) (hc : 2 ≤ c) (junk fresh : Int → K) :
    ∀ (As Bs : List (DTensor K)) (pa pb : Option Lk) (S : List (List Key)) (ab : List (Lk × Lk)) (prev : Option (Bond K))
      (ts : List (Bond K)),
    Shape (pa.map (·.x)) (As.map (keys ·.is)) S (ab.map (·.1.x)) → Shape (pb.map (·.x)) (Bs.map (keys ·.is)) S (ab.map (·.2.x)) →
    (names pa S (ab.map (·.1))).Nodup → (names pb S (ab.map (·.2))).Nodup →
    (prev = none ∧ pa = none ∧ pb = none ∧ 2 ≤ As.length ∨ ∃ t a b, prev = some t ∧ pa = some a ∧ pb = some b ∧ BondRel ext t (a, b)) →
    List.Forall₂ (BondRel ext) ts ab → (∀ T ∈ As, T.OK ext ∧ ∀ i ∈ T.is, Plain i) → (∀ T ∈ Bs, T.OK ext ∧ ∀ i ∈ T.is, Plain i) →
    (∀ s ∈ S, s ≠ [] ∧ s.length + 2 ≤ c) →
    ∃ Ms, sumSites fuel junk fresh prev As Bs ts = some (.ok Ms) ∧ SumRel ext pa pb As Bs Ms S ab := by
  intro As
  induction As with
  | nil => intro Bs pa pb S ab prev ts h; simp [Shape] at h
  | cons A As ih =>
    intro Bs pa pb S ab prev ts hA hB nA nB hp hts okA okB hS
    have hpq : pa.map (·.q) = pb.map (·.q) := by
      rcases hp with ⟨_, rfl, rfl, _⟩ | ⟨t, a, b, _, rfl, rfl, h⟩
      · rfl
      · exact congrArg some h.q
    have h1 : BlockO ext (prev.map (·.first)) pa := by
      rcases hp with ⟨rfl, rfl, rfl, _⟩ | ⟨t, a, b, rfl, rfl, rfl, h⟩
      · trivial
      · exact h.first
    have h3 : BlockO ext (prev.map (·.second)) pb := by
      rcases hp with ⟨rfl, rfl, rfl, _⟩ | ⟨t, a, b, rfl, rfl, rfl, h⟩
      · trivial
      · exact h.second
    have p1 : ∀ b ∈ prev, ∀ i ∈ b.first.is, Plain i := by
      rcases hp with ⟨rfl, rfl, rfl, _⟩ | ⟨t, a, b, rfl, rfl, rfl, h⟩
      · simp
      · intro b hb; cases hb; exact h.plain
    rcases As with _ | ⟨A', As⟩
    · -- the last site
      rcases S with _ | ⟨s, _ | ⟨_, _⟩⟩ <;> try (simp [Shape] at hA; done)
      rcases ab with _ | ⟨_, _⟩ <;> try (simp [Shape] at hA; done)
      rcases Bs with _ | ⟨B, _ | ⟨_, _⟩⟩ <;> try (simp [Shape] at hB; done)
      cases hts
      have kA : ∀ k, k ∈ keys A.is ↔ k ∈ s ∨ pa.map (·.x) = some k ∨ (none : Option Lk).map (·.x) = some k := by
        intro k; rw [hA k]; simp
      have kB : ∀ k, k ∈ keys B.is ↔ k ∈ s ∨ pb.map (·.x) = some k ∨ (none : Option Lk).map (·.x) = some k := by
        intro k; rw [hB k]; simp
      obtain ⟨s1, s2⟩ := hS s (by simp)
      have oA := okA A (by simp)
      have oB := okB B (by simp)
      obtain ⟨M, e, hM⟩ := siteSum_ok hF hc junk fresh (prev := prev) (next := none) (na := none) (nb := none) oA.1 oB.1 h1 trivial h3 trivial s1
        (apart_last nA) (apart_last nB) hpq rfl kA kB (length_site oA.1.nodup kA s2) (length_site oB.1.nodup kB s2) s2 oA.2 p1 (by simp)
      rcases hp with ⟨_, _, _, h⟩ | ⟨t, a, b, rfl, rfl, rfl, h⟩
      · simp at h
      · exact ⟨[M], by simp [sumSites, e, Run.bind], .one hM⟩
    · rcases S with _ | ⟨s, S⟩ <;> try (simp [Shape] at hA; done)
      rcases ab with _ | ⟨⟨a, b⟩, ab⟩ <;> try (simp [Shape] at hA; done)
      rcases Bs with _ | ⟨B, _ | ⟨B', Bs⟩⟩ <;> try (simp [Shape] at hB; done)
      cases hts with
      | cons ht hts =>
      rename_i t ts
      obtain ⟨hA1, hA2⟩ := hA
      obtain ⟨hB1, hB2⟩ := hB
      have kA : ∀ k, k ∈ keys A.is ↔ k ∈ s ∨ pa.map (·.x) = some k ∨ (some a).map (·.x) = some k := by
        intro k; rw [hA1 k]; simp [eq_comm]
      have kB : ∀ k, k ∈ keys B.is ↔ k ∈ s ∨ pb.map (·.x) = some k ∨ (some b).map (·.x) = some k := by
        intro k; rw [hB1 k]; simp [eq_comm]
      obtain ⟨s1, s2⟩ := hS s (by simp)
      have oA := okA A (by simp)
      have oB := okB B (by simp)
      obtain ⟨M, e, hM⟩ := siteSum_ok hF hc junk fresh (prev := prev) (next := some t) (na := some a) (nb := some b) oA.1 oB.1 h1 ht.first h3 ht.second s1
        (apart_of nA) (apart_of nB) hpq (congrArg some ht.q) kA kB (length_site oA.1.nodup kA s2) (length_site oB.1.nodup kB s2) s2 oA.2 p1
        (by intro b hb; cases hb; exact ht.plain)
      obtain ⟨Ms, e', hMs⟩ := ih (B' :: Bs) (some a) (some b) S ab (some t) ts hA2 hB2 (names_tail nA) (names_tail nB)
        (Or.inr ⟨t, a, b, rfl, rfl, rfl, ht⟩) hts (fun T hT => okA T (List.mem_cons_of_mem _ hT)) (fun T hT => okB T (List.mem_cons_of_mem _ hT))
        (fun s hs => hS s (List.mem_cons_of_mem _ hs))
      exact ⟨M :: Ms, by simp [sumSites, e, e', Run.bind], .cons hM hMs⟩

/-- The result is a chain. -/
theorem SumRel.chain {ext : Key → Nat} {pa pb : Option Lk} {As Bs Ms : List (DTensor K)} {S : List (List Key)} {ab : List (Lk × Lk)}
    (h : SumRel ext pa pb As Bs Ms S ab) : Shape (pa.map (·.q)) (Ms.map (keys ·.is)) S (ab.map (·.1.q)) ∧
    ∀ T ∈ Ms, T.OK ext ∧ ∀ i ∈ T.is, Plain i := by
  induction h with
  | one h =>
    refine ⟨fun k => ?_, fun T hT => ?_⟩
    · rw [h.inds]; simp
    · rw [List.mem_singleton] at hT; subst hT; exact ⟨h.ok, h.plain⟩
  | cons h hr ih =>
    rename_i pa pb A B M S a b As Bs Ms Ss ab
    refine ⟨?_, fun T hT => ?_⟩
    · cases hr <;>
      · refine ⟨fun k => ?_, ih.1⟩
        rw [h.inds]; simp [eq_comm]
    · rcases List.mem_cons.1 hT with rfl | hT
      · exact ⟨h.ok, h.plain⟩
      · exact ih.2 T hT

/-! ## Components of the result -/

/-- One half of the sum over a new link. -/
theorem emb_half {ext : Key → Nat} {p : Option Lk} {x q : Key} {lo : Nat} {F T : (Key → Nat) → K} {PF PT : Key → Prop}
    (hF : DependsOn PF F) (hT : DependsOn PT T) (q1 : ¬ PF q) (q2 : ¬ PT q) (hxq : x ≠ q)
    (hp : ∀ a ∈ p, ¬ PT a.x ∧ a.x ≠ x ∧ a.q ≠ x ∧ a.q ≠ q) (σ : Key → Nat) :
    embO ext p (fun τ => ∑ v ∈ range (ext x), F (Function.update τ x v) * T (Function.update τ x v)) σ =
      ∑ v ∈ range (ext x), embO ext p F (Function.update (Function.update σ q (lo + v)) x v) *
        T (Function.update (Function.update σ q (lo + v)) x v) := by
  have drop : ∀ {P : Key → Prop} {G : (Key → Nat) → K}, DependsOn P G → ¬ P q → ∀ (τ : Key → Nat) (w v : Nat),
      G (Function.update (Function.update τ q w) x v) = G (Function.update τ x v) := by
    intro P G hG hq τ w v
    refine hG _ _ fun k hk => ?_
    by_cases hkx : k = x
    · subst hkx; simp
    · have : k ≠ q := by rintro rfl; exact hq hk
      simp [hkx, this]
  cases p with
  | none =>
    simp only [embO]
    exact sum_congr rfl fun v _ => by rw [drop hF q1, drop hT q2]
  | some a =>
    obtain ⟨h1, h2, h3, h4⟩ := hp a rfl
    simp only [embO, emb]
    have hc : ∀ v, (Function.update (Function.update σ q (lo + v)) x v) a.q = σ a.q := by
      intro v; simp [h3, h4]
    simp only [hc]
    by_cases hin : a.lo ≤ σ a.q ∧ σ a.q < a.lo + ext a.x
    · simp only [if_pos hin]
      refine sum_congr rfl fun v _ => ?_
      rw [drop hT q2]
      congr 1
      · refine hF _ _ fun k hk => ?_
        have hkq : k ≠ q := by rintro rfl; exact q1 hk
        by_cases hkx : k = x
        · subst hkx; simp [Ne.symm h2]
        · by_cases hka : k = a.x
          · subst hka; simp [h2]
          · simp [hkx, hka, hkq]
      · refine hT _ _ fun k hk => ?_
        have hka : k ≠ a.x := by rintro rfl; exact h1 hk
        by_cases hkx : k = x
        · subst hkx; simp
        · simp [hkx, hka]
    · simp only [if_neg hin, zero_mul, sum_const_zero]

/-- The sum over a new link is the sum of the sums over the two links which it replaces. -/
theorem emb_sum {ext : Key → Nat} {pa pb : Option Lk} {x y q : Key} {F G T U : (Key → Nat) → K} {PF PG PT PU : Key → Prop}
    (hF : DependsOn PF F) (hT : DependsOn PT T) (hG : DependsOn PG G) (hU : DependsOn PU U)
    (q1 : ¬ PF q) (q2 : ¬ PT q) (q3 : ¬ PG q) (q4 : ¬ PU q) (hxq : x ≠ q) (hyq : y ≠ q) (hsum : ext q = ext x + ext y)
    (ha : ∀ a ∈ pa, ¬ PT a.x ∧ a.x ≠ x ∧ a.q ≠ x ∧ a.q ≠ q) (hb : ∀ a ∈ pb, ¬ PU a.x ∧ a.x ≠ y ∧ a.q ≠ y ∧ a.q ≠ q) (σ : Key → Nat) :
    ∑ v ∈ range (ext q), (emb 0 (ext x) x q (embO ext pa F) (Function.update σ q v) + emb (ext x) (ext y) y q (embO ext pb G) (Function.update σ q v)) *
        (emb 0 (ext x) x q T (Function.update σ q v) + emb (ext x) (ext y) y q U (Function.update σ q v)) =
      embO ext pa (fun τ => ∑ v ∈ range (ext x), F (Function.update τ x v) * T (Function.update τ x v)) σ +
      embO ext pb (fun τ => ∑ v ∈ range (ext y), G (Function.update τ y v) * U (Function.update τ y v)) σ := by
  rw [hsum, sum_range_add, emb_half (lo := 0) hF hT q1 q2 hxq ha, emb_half (lo := ext x) hG hU q3 q4 hyq hb]
  congr 1
  · refine sum_congr rfl fun v hv => ?_
    rw [mem_range] at hv
    have h2 : ¬ ext x ≤ v := by omega
    simp [emb, hv, h2]
  · refine sum_congr rfl fun v hv => ?_
    rw [mem_range] at hv
    simp [emb, hv]

theorem prod_dep_shape {ext : Key → Nat} {As : List (DTensor K)} {l : Option Key} {S : List (List Key)} {ls : List Key}
    (h : Shape l (As.map (keys ·.is)) S ls) (hok : ∀ T ∈ As, T.OK ext) :
    DependsOn (fun k => k ∈ S.flatten ∨ l = some k) (sumOver ext ls fun τ => (As.map fun T => T.sem.val τ).prod) := by
  have hd : DependsOn (fun k => (k ∈ S.flatten ∨ l = some k) ∨ k ∈ ls) (fun τ => (As.map fun T => T.sem.val τ).prod) := by
    intro σ τ hst
    refine congrArg List.prod ?_
    refine List.map_congr_left fun T hT => (DTensor.sem_ok (hok T hT)).dep σ τ fun k hk => hst k ?_
    obtain ⟨n, hn, rfl⟩ := List.mem_iff_getElem.1 hT
    obtain ⟨h1, _, h3⟩ := h.names
    have hS : n < S.length := by simp at h1; omega
    rcases h3 n (by simpa using hn) hS k (by rw [List.getElem_map]; exact hk) with h | h | h
    · exact Or.inl (Or.inl (List.mem_flatten.2 ⟨_, List.getElem_mem _, h⟩))
    · exact Or.inr h
    · exact Or.inl (Or.inr h)
  exact (sumOver_dep ext hd ls).mono fun k hk => hk.1.resolve_right hk.2


omit [DecidableEq K] in
theorem sumOver_head {ext : Key → Nat} {x : Key} {xs : List Key} {A : DTensor K} {As : List (DTensor K)} {P : Key → Prop}
    (hA : DependsOn P A.sem.val) (hx : ∀ k ∈ xs, ¬ P k) (σ : Key → Nat) :
    sumOver ext (x :: xs) (fun τ => ((A :: As).map fun T => T.sem.val τ).prod) σ =
      ∑ v ∈ range (ext x), A.sem.val (Function.update σ x v) * sumOver ext xs (fun τ => (As.map fun T => T.sem.val τ).prod) (Function.update σ x v) := by
  simp only [sumOver]
  refine sum_congr rfl fun v _ => ?_
  rw [← sumOver_mul_left ext xs _ (hA.mono fun k hk h => hx k h hk)]
  simp only [List.map_cons, List.prod_cons]

theorem SumRel.sum {ext : Key → Nat} {pa pb : Option Lk} {As Bs Ms : List (DTensor K)} {S : List (List Key)} {ab : List (Lk × Lk)}
    (h : SumRel ext pa pb As Bs Ms S ab) : ∀ (_ : Shape (pa.map (·.x)) (As.map (keys ·.is)) S (ab.map (·.1.x)))
    (_ : Shape (pb.map (·.x)) (Bs.map (keys ·.is)) S (ab.map (·.2.x))) (_ : (names pa S (ab.map (·.1))).Nodup)
    (_ : (names pb S (ab.map (·.2))).Nodup) (_ : ∀ T ∈ As, T.OK ext) (_ : ∀ T ∈ Bs, T.OK ext) (_ : pa.map (·.q) = pb.map (·.q))
    (_ : ∀ p ∈ ab, p.1.q = p.2.q ∧ p.1.lo = 0 ∧ p.2.lo = ext p.1.x ∧ ext p.1.q = ext p.1.x + ext p.2.x) (σ : Key → Nat)
    (_ : ∀ k, k ∈ S.flatten ∨ pa.map (·.q) = some k → σ k < ext k),
    sumOver ext (ab.map (·.1.q)) (fun τ => (Ms.map fun T => T.sem.val τ).prod) σ =
      embO ext pa (sumOver ext (ab.map (·.1.x)) fun τ => (As.map fun T => T.sem.val τ).prod) σ +
      embO ext pb (sumOver ext (ab.map (·.2.x)) fun τ => (Bs.map fun T => T.sem.val τ).prod) σ := by
  induction h with
  | one h =>
    rename_i pa pb A B M S
    intro _ _ _ _ _ _ _ _ σ hσ
    simp only [List.map_nil, sumOver, List.map_cons, List.prod_cons, List.prod_nil, mul_one]
    refine h.val σ fun k hk => hσ k ?_
    rw [h.inds] at hk
    simpa using hk
  | cons h hr ih =>
    rename_i pa pb A B M s a b As Bs Ms Ss ab
    intro hA hB nA nB okA okB hpq hab σ hσ
    obtain ⟨e1, e2, e3, e4⟩ := hab (a, b) (by simp)
    simp only at e1 e2 e3 e4
    have shA : (∀ k, k ∈ keys A.is ↔ k ∈ s ∨ pa.map (·.x) = some k ∨ k = a.x) ∧ Shape (some a.x) (As.map (keys ·.is)) Ss (ab.map (·.1.x)) := by
      cases hr <;> exact hA
    have shB : (∀ k, k ∈ keys B.is ↔ k ∈ s ∨ pb.map (·.x) = some k ∨ k = b.x) ∧ Shape (some b.x) (Bs.map (keys ·.is)) Ss (ab.map (·.2.x)) := by
      cases hr <;> exact hB
    have okA' : ∀ T ∈ As, T.OK ext := fun T hT => okA T (List.mem_cons_of_mem _ hT)
    have okB' : ∀ T ∈ Bs, T.OK ext := fun T hT => okB T (List.mem_cons_of_mem _ hT)
    have IH := ih shA.2 shB.2 (names_tail nA) (names_tail nB) okA' okB' (by simp [e1]) fun p hp => hab p (List.mem_cons_of_mem _ hp)
    have tA := prod_dep_shape shA.2 okA'
    have tB := prod_dep_shape shB.2 okB'
    have dA := (DTensor.sem_ok (okA A (by simp))).dep
    have dB := (DTensor.sem_ok (okB B (by simp))).dep
    have dM := (DTensor.sem_ok h.ok).dep
    -- what the names give
    have key : ∀ {p : Option Lk} {c : Lk} {cs : List Lk}, (names p (s :: Ss) (c :: cs)).Nodup →
        (∀ k ∈ cs.map (·.x), k ∉ s ∧ p.map (·.x) ≠ some k ∧ k ≠ c.x) ∧ (∀ k ∈ cs.map (·.q), k ∉ s ∧ p.map (·.q) ≠ some k ∧ k ≠ c.q) ∧
        (c.q ∉ s ∧ p.map (·.x) ≠ some c.q ∧ c.x ≠ c.q) ∧ c.q ∉ Ss.flatten ∧
        (∀ a ∈ p, a.x ∉ Ss.flatten ∧ a.x ≠ c.x ∧ a.q ≠ c.x ∧ a.q ≠ c.q) := by
      intro p c cs hn
      simp only [names, List.nodup_append, List.flatten_cons, List.map_cons, List.mem_append, List.mem_cons, Option.mem_toList,
        Option.mem_def, List.nodup_cons] at hn
      refine ⟨fun k hk => ⟨fun h => ?_, fun h => ?_, fun h => ?_⟩, fun k hk => ⟨fun h => ?_, fun h => ?_, fun h => ?_⟩,
        ⟨fun h => ?_, fun h => ?_, fun h => ?_⟩, fun h => ?_, ?_⟩
      all_goals try (clear ih IH; grind)
      rintro b rfl
      simp only [Option.map_some, Option.some.injEq] at hn
      refine ⟨fun h => ?_, fun h => ?_, fun h => ?_, fun h => ?_⟩ <;> grind
    obtain ⟨kA1, kA2, kA3, kA4, kA5⟩ := key nA
    obtain ⟨kB1, kB2, kB3, kB4, kB5⟩ := key nB
    change sumOver ext (a.q :: ab.map (·.1.q)) (fun τ => ((M :: Ms).map fun T => T.sem.val τ).prod) σ =
      embO ext pa (sumOver ext (a.x :: ab.map (·.1.x)) fun τ => ((A :: As).map fun T => T.sem.val τ).prod) σ +
      embO ext pb (sumOver ext (b.x :: ab.map (·.2.x)) fun τ => ((B :: Bs).map fun T => T.sem.val τ).prod) σ
    rw [sumOver_head dM (by
      intro k hk hM
      rw [List.map_map] at kA2
      obtain ⟨h1, h2, h3⟩ := kA2 k hk
      rcases (h.inds k).1 hM with h' | h' | h'
      · exact h1 h'
      · exact h2 h'
      · exact h3 (Option.some.inj h').symm)]
    have rA : (sumOver ext (a.x :: ab.map (·.1.x)) fun τ => ((A :: As).map fun T => T.sem.val τ).prod) = fun σ => ∑ v ∈ range (ext a.x),
        A.sem.val (Function.update σ a.x v) * sumOver ext (ab.map (·.1.x)) (fun τ => (As.map fun T => T.sem.val τ).prod) (Function.update σ a.x v) := by
      funext σ
      refine sumOver_head dA ?_ σ
      intro k hk hM
      rw [List.map_map] at kA1
      obtain ⟨h1, h2, h3⟩ := kA1 k hk
      rcases (shA.1 k).1 hM with h' | h' | h'
      · exact h1 h'
      · exact h2 h'
      · exact h3 h'
    have rB : (sumOver ext (b.x :: ab.map (·.2.x)) fun τ => ((B :: Bs).map fun T => T.sem.val τ).prod) = fun σ => ∑ v ∈ range (ext b.x),
        B.sem.val (Function.update σ b.x v) * sumOver ext (ab.map (·.2.x)) (fun τ => (Bs.map fun T => T.sem.val τ).prod) (Function.update σ b.x v) := by
      funext σ
      refine sumOver_head dB ?_ σ
      intro k hk hM
      rw [List.map_map] at kB1
      obtain ⟨h1, h2, h3⟩ := kB1 k hk
      rcases (shB.1 k).1 hM with h' | h' | h'
      · exact h1 h'
      · exact h2 h'
      · exact h3 h'
    rw [rA, rB]
    rw [← e1] at kB3 kB4 kB5
    rw [← emb_sum (x := a.x) (y := b.x) (q := a.q) dA tA dB tB ?_ ?_ ?_ ?_ kA3.2.2 kB3.2.2 e4 ?_ ?_ σ]
    · refine sum_congr rfl fun v hv => ?_
      rw [mem_range] at hv
      have hr1 : ∀ k ∈ keys M.is, Function.update σ a.q v k < ext k := by
        intro k hk
        by_cases hkq : k = a.q
        · subst hkq; simpa using hv
        · rw [Function.update_of_ne hkq]
          refine hσ k ?_
          rcases (h.inds k).1 hk with h' | h' | h'
          · exact Or.inl (by simp [h'])
          · exact Or.inr h'
          · exact absurd (Option.some.inj h').symm hkq
      rw [h.val _ hr1, IH (Function.update σ a.q v) ?_]
      · simp only [embO, e2, e3, ← e1]
      · rintro k hk
        by_cases hkq : k = a.q
        · subst hkq; simpa using hv
        · rw [Function.update_of_ne hkq]
          refine hσ k (Or.inl ?_)
          rcases hk with h' | h'
          · simp only [List.flatten_cons, List.mem_append]; exact Or.inr h'
          · exact absurd (Option.some.inj h').symm hkq
    · intro h'
      rcases (shA.1 _).1 h' with h' | h' | h'
      · exact kA3.1 h'
      · exact kA3.2.1 h'
      · exact kA3.2.2 h'.symm
    · rintro (h' | h')
      · exact kA4 h'
      · exact kA3.2.2 (Option.some.inj h')
    · intro h'
      rcases (shB.1 _).1 h' with h' | h' | h'
      · exact kB3.1 h'
      · exact kB3.2.1 h'
      · exact kB3.2.2 h'.symm
    · rintro (h' | h')
      · exact kB4 h'
      · exact kB3.2.2 (Option.some.inj h')
    · intro p hp
      obtain ⟨h1, h2, h3, h4⟩ := kA5 p hp
      exact ⟨by rintro (h' | h'); exacts [h1 h', h2 (Option.some.inj h').symm], h2, h3, h4⟩
    · intro p hp
      obtain ⟨h1, h2, h3, h4⟩ := kB5 p hp
      exact ⟨by rintro (h' | h'); exacts [h1 h', h2 (Option.some.inj h').symm], h2, h3, h4⟩

/-! ## Priming links -/

/-- The name of a primed index. -/
def primeKey (n : Int) (k : Key) : Key := (k.1, k.2.1 + n, k.2.2)

theorem key_prime (n : Int) (i : Index) : (i.prime n).key = primeKey n i.key := rfl

theorem primeKey_inj {n : Int} {k k' : Key} (h : primeKey n k = primeKey n k') : k = k' := by
  obtain ⟨a, b, c⟩ := k
  obtain ⟨a', b', c'⟩ := k'
  simp only [primeKey, Prod.mk.injEq, add_left_inj] at h
  simp [h]

/-- Priming the links does not change the components. -/
theorem primeLinks_ok {ext : Key → Nat} {x : List (DTensor K)} {S : List (List Key)} {l : List Key} (h : IsChain ext x S l) (n : Int)
    (hn : ∀ k ∈ l, 0 ≤ k.2.1 + n ∧ k.2.1 + n < replTemp) (hu : ∀ k ∈ l, primeKey n k ∉ S.flatten)
    (he : ∀ k ∈ l, ext (primeKey n k) = ext k) :
    ∃ B, primeLinks n x = .ok B ∧ IsChain ext B S (l.map (primeKey n)) ∧ ∀ σ, amp ext B (l.map (primeKey n)) σ = amp ext x l σ := by
  obtain ⟨ren, hren⟩ : ∃ ren : Key → Key, ∀ k, ren k = if k ∈ l then primeKey n k else k := ⟨_, fun _ => rfl⟩
  have hnd := h.nodup
  rw [List.nodup_append] at hnd
  have hS : ∀ k ∈ S.flatten, ren k = k := by
    intro k hk
    rw [hren, if_neg fun hl => hnd.2.2 k hk k hl rfl]
  have hl : ∀ k ∈ l, ren k = primeKey n k := fun k hk => by rw [hren, if_pos hk]
  have el : l.map ren = l.map (primeKey n) := List.map_congr_left hl
  have eS : S.map (·.map ren) = S := by
    conv_rhs => rw [← List.map_id S]
    refine List.map_congr_left fun s hs => ?_
    conv_rhs => rw [id, ← List.map_id s]
    exact List.map_congr_left fun k hk => hS k (List.mem_flatten.2 ⟨s, hs, hk⟩)
  have n1 : (l.map (primeKey n)).Nodup := hnd.2.1.map fun _ _ => primeKey_inj
  have n2 : (S.flatten ++ l.map (primeKey n)).Nodup := by
    rw [List.nodup_append]
    refine ⟨hnd.1, n1, fun a ha b hb e => ?_⟩
    subst e
    obtain ⟨k, hk, rfl⟩ := List.mem_map.1 hb
    exact hu k hk ha
  obtain ⟨lx, e1, k1, _, B, e2, hB⟩ := replaceLinkInds_map h (·.prime n) (ren := ren) hS (by
    intro i hi hk
    refine ⟨by rw [key_prime, hl _ hk], rfl, ⟨hi.dir, hi.id, hi.qns, ?_, ?_⟩⟩
    · exact (hn _ hk).1
    · exact (hn _ hk).2) (by rw [el]; exact n1)
  have he' : ∀ k ∈ S.flatten ++ l, ext (ren k) = ext k := by
    intro k hk
    rcases List.mem_append.1 hk with hk | hk
    · rw [hS k hk]
    · rw [hl k hk, he k hk]
  refine ⟨B, by simp [primeLinks, e1, e2, Res.bind], ?_, fun σ => ?_⟩
  · have := h.renamed hB (by rw [eS, el]; exact n2) he'
    rwa [eS, el] at this
  · have := amp_renamed (conj := RingHom.id K) h hB (by
      rw [List.map_append, List.map_flatten, eS, el]; exact n2) he' σ (fun k => σ (ren k)) fun _ _ => rfl
    rw [el] at this
    rw [this, RingHom.id_apply]
    exact h.amp_dep _ _ fun k hk => by rw [hS k hk]

theorem bonds_of_linkInds : ∀ {x : List (DTensor K)} {l : IndexSet}, linkInds x = .ok l → bonds x = .ok l := by
  intro x
  induction x with
  | nil => intro l h; exact h
  | cons T x ih =>
    intro l h
    rcases x with _ | ⟨U, x⟩
    · exact h
    · simp only [linkInds] at h
      rw [Res.bind_eq_ok] at h
      obtain ⟨i, h1, h⟩ := h
      split at h
      · cases h
      · rw [Res.bind_eq_ok] at h
        obtain ⟨r, h2, h⟩ := h
        simp [bonds, h1, ih h2, Res.bind, ← h]

/-! ## The sum -/

/-- The loops of `addAssumeOrth` on chains with links `l` and `m`. -/
theorem sum_core {ext : Key → Nat} {d c fuel : Nat} (hF : Fits ext d c fuel) (hc : 2 ≤ c) (junk fresh : Int → K) {newid : Key → Nat}
    {L R : List (DTensor K)} {S : List (List Key)} {l m : List Key} (hL : IsChain ext L S l) (hR : IsChain ext R S m)
    (h2 : 2 ≤ L.length) (hS : ∀ s ∈ S, s ≠ [] ∧ s.length + 2 ≤ c) (hz : ∀ k ∈ l, newid k ≠ 0) (hinj : (l.map newid).Nodup)
    (hu : ∀ k ∈ l, ∀ k' ∈ S.flatten ++ l ++ m, newid k ≠ k'.1) (he : ∀ p ∈ l.zip m, ext (simKey newid p.1) = ext p.1 + ext p.2) :
    ∃ l1 l2 M, bonds L = .ok l1 ∧ bonds R = .ok l2 ∧ sumSites fuel junk fresh none L R (l1.zipWith (plussers newid) l2) = some (.ok M) ∧
      IsChain ext M S (l.map (simKey newid)) ∧
      ∀ σ : Key → Nat, (∀ k ∈ S.flatten, σ k < ext k) → amp ext M (l.map (simKey newid)) σ = amp ext L l σ + amp ext R m σ := by
  obtain ⟨l1, e1, k1, m1⟩ := linkInds_spec hL.shape hL.nodup (by simp) (fun T hT => (hL.ok T hT).nodup)
    (fun T hT i hi => (hL.plain T hT i hi).id)
  obtain ⟨l2, e2, k2, m2⟩ := linkInds_spec hR.shape hR.nodup (by simp) (fun T hT => (hR.ok T hT).nodup)
    (fun T hT i hi => (hR.plain T hT i hi).id)
  obtain ⟨a1, a2, _⟩ := hL.shape.names
  obtain ⟨b1, b2, _⟩ := hR.shape.names
  have hlen : l.length = m.length := by omega
  obtain ⟨mkab, hmk⟩ : ∃ f : Key × Key → Lk × Lk, ∀ p, f p = (⟨p.1, simKey newid p.1, 0⟩, ⟨p.2, simKey newid p.1, ext p.1⟩) :=
    ⟨_, fun _ => rfl⟩
  have fst : ∀ {β : Type} (g : Key → β), (l.zip m).map (fun p => g p.1) = l.map g := by
    intro β g
    rw [← List.map_fst_zip (l₁ := l) (l₂ := m) hlen.le, List.map_map, List.map_fst_zip hlen.le]
    rfl
  have snd : ∀ {β : Type} (g : Key → β), (l.zip m).map (fun p => g p.2) = m.map g := by
    intro β g
    rw [← List.map_snd_zip (l₁ := l) (l₂ := m) hlen.ge, List.map_map, List.map_snd_zip hlen.ge]
    rfl
  have x1 : ((l.zip m).map mkab).map (·.1.x) = l := by
    rw [List.map_map]
    exact (List.map_congr_left fun p _ => by simp [hmk]).trans ((fst id).trans (List.map_id l))
  have x2 : ((l.zip m).map mkab).map (·.2.x) = m := by
    rw [List.map_map]
    exact (List.map_congr_left fun p _ => by simp [hmk]).trans ((snd id).trans (List.map_id m))
  have q1 : ((l.zip m).map mkab).map (·.1.q) = l.map (simKey newid) := by
    rw [List.map_map]
    exact (List.map_congr_left fun p _ => by simp [hmk]).trans (fst (simKey newid))
  have q2 : ((l.zip m).map mkab).map (·.2.q) = l.map (simKey newid) := by
    rw [List.map_map]
    exact (List.map_congr_left fun p _ => by simp [hmk]).trans (fst (simKey newid))
  have nq : (l.map (simKey newid)).Nodup := by
    have : l.map newid = (l.map (simKey newid)).map (·.1) := by simp [simKey]
    rw [this] at hinj
    exact hinj.of_map _
  have nA : (names none S (((l.zip m).map mkab).map (·.1))).Nodup := by
    simp only [names, Option.map_none, Option.toList_none, List.nil_append, List.map_map]
    rw [List.map_map] at x1 q1
    rw [List.nodup_append]
    refine ⟨?_, ?_, ?_⟩
    · have := hL.nodup; rw [← x1] at this; exact this
    · have := nq; rw [← q1] at this; exact this
    · intro a ha b hb e
      subst e
      obtain ⟨k, hk, rfl⟩ := List.mem_map.1 (show a ∈ l.map (simKey newid) from q1 ▸ hb)
      refine hu k hk (simKey newid k) ?_ rfl
      rw [show (List.map ((·.x) ∘ (·.1) ∘ mkab) (l.zip m)) = l from x1] at ha
      exact List.mem_append_left _ ha
  have nB : (names none S (((l.zip m).map mkab).map (·.2))).Nodup := by
    simp only [names, Option.map_none, Option.toList_none, List.nil_append, List.map_map]
    rw [List.map_map] at x2 q2
    rw [List.nodup_append]
    refine ⟨?_, ?_, ?_⟩
    · have := hR.nodup; rw [← x2] at this; exact this
    · have := nq; rw [← q2] at this; exact this
    · intro a ha b hb e
      subst e
      obtain ⟨k, hk, rfl⟩ := List.mem_map.1 (show a ∈ l.map (simKey newid) from q2 ▸ hb)
      refine hu k hk (simKey newid k) ?_ rfl
      rw [show (List.map ((·.x) ∘ (·.2) ∘ mkab) (l.zip m)) = m from x2] at ha
      rcases List.mem_append.1 ha with ha | ha
      · exact List.mem_append_left _ (List.mem_append_left _ ha)
      · exact List.mem_append_right _ ha
  have hbonds : List.Forall₂ (BondRel ext) (l1.zipWith (plussers (K := K) newid) l2) ((l.zip m).map mkab) := by
    have z1 : l1.zipWith (plussers (K := K) newid) l2 = (l1.zip l2).map fun p => plussers newid p.1 p.2 := by
      rw [List.zip, List.map_zipWith]
    have z2 : l.zip m = (l1.zip l2).map fun p => (p.1.key, p.2.key) := by
      rw [← k1, ← k2, keys, keys, List.zip_map]; rfl
    have hz2 := he
    rw [z2] at hz2
    rw [z1, z2, List.map_map, List.forall₂_map_left_iff, List.forall₂_map_right_iff, List.forall₂_same]
    intro p hp
    obtain ⟨i1, i2⟩ := List.of_mem_zip hp
    obtain ⟨T, hT, hTi⟩ := m1 _ i1
    obtain ⟨U, hU, hUi⟩ := m2 _ i2
    have pT := hL.plain T hT _ hTi
    have pU := hR.plain U hU _ hUi
    have dT := (hL.ok T hT).dims _ hTi
    have dU := (hR.ok U hU).dims _ hUi
    have kl : p.1.key ∈ l := by rw [← k1]; exact List.mem_map_of_mem i1
    have km : p.2.key ∈ m := by rw [← k2]; exact List.mem_map_of_mem i2
    have hlo : ¬ p.1.tags.plev < 0 := not_lt.2 pT.lo
    have hsum : (plussers (K := K) newid p.1 p.2).sum.key = simKey newid p.1.key := by
      simp only [plussers, newIndex, if_neg hlo]; rfl
    have hsd : ext (plussers (K := K) newid p.1 p.2).sum.key = p.1.dim + p.2.dim := by
      rw [hsum, dT, dU]
      exact hz2 (p.1.key, p.2.key) (List.mem_map.2 ⟨p, hp, rfl⟩)
    have hne : ∀ k ∈ S.flatten ++ l ++ m, k ≠ (plussers (K := K) newid p.1 p.2).sum.key := by
      rintro k hk rfl
      rw [hsum] at hk
      exact hu _ kl _ hk rfl
    have B1 := plussers_first (K := K) (newid := newid) dT dU ((hL.ok T hT).pos _ hTi) ((hR.ok U hU).pos _ hUi) pT.qns hsd
      (hne _ (List.mem_append_left _ (List.mem_append_right _ kl)))
    have B2 := plussers_second (K := K) (newid := newid) dU ((hR.ok U hU).pos _ hUi) pU.qns hsd
      (hne _ (List.mem_append_right _ km))
    rw [hsum] at B1 B2 hsd
    simp only [Function.comp_apply, hmk]
    refine ⟨B1, by rw [← dT]; exact B2, rfl, rfl, rfl, by rw [hsd, dT, dU], ?_⟩
    intro i hi
    simp only [plussers, IT.is, List.mem_cons, List.not_mem_nil, or_false] at hi
    rcases hi with rfl | rfl
    · exact pT
    · simp only [newIndex, if_neg hlo]
      exact ⟨Or.inl rfl, hz _ kl, rfl, pT.lo, pT.hi⟩
  have okL : ∀ T ∈ L, T.OK ext ∧ ∀ i ∈ T.is, Plain i := fun T hT => ⟨hL.ok T hT, hL.plain T hT⟩
  have okR : ∀ T ∈ R, T.OK ext ∧ ∀ i ∈ T.is, Plain i := fun T hT => ⟨hR.ok T hT, hR.plain T hT⟩
  obtain ⟨M, eM, hM⟩ := sumSites_ok hF hc junk fresh L R none none S ((l.zip m).map mkab) none _ (by rw [x1]; exact hL.shape)
    (by rw [x2]; exact hR.shape) nA nB (Or.inl ⟨rfl, rfl, rfl, h2⟩) hbonds okL okR hS
  refine ⟨l1, l2, M, bonds_of_linkInds e1, bonds_of_linkInds e2, eM, ⟨?_, ?_, fun T hT => (hM.chain.2 T hT).1, fun T hT => (hM.chain.2 T hT).2⟩,
    fun σ hσ => ?_⟩
  · have := hM.chain.1; rwa [q1] at this
  · rw [List.nodup_append]
    refine ⟨(List.nodup_append.1 hL.nodup).1, nq, ?_⟩
    intro a ha b hb e
    subst e
    obtain ⟨k, hk, rfl⟩ := List.mem_map.1 hb
    exact hu k hk _ (List.mem_append_left _ (List.mem_append_left _ ha)) rfl
  · have := hM.sum (by rw [x1]; exact hL.shape) (by rw [x2]; exact hR.shape) nA nB (fun T hT => hL.ok T hT) (fun T hT => hR.ok T hT) rfl (by
      intro p hp
      obtain ⟨z, hz, rfl⟩ := List.mem_map.1 hp
      rw [hmk]
      exact ⟨rfl, rfl, rfl, he z hz⟩) σ (by
      rintro k (h | h)
      · exact hσ k h
      · cases h)
    rw [q1, x1, x2] at this
    exact this

/-- The name of the link of the result which takes the place of the link `k` of the first operand. -/
def sumLink (newid : Key → Nat) (k : Key) : Key := (newid (primeKey randPlev k), k.2)

/-- What the ids of the new links and the prime levels have to be like: ids as from a random generator without collisions, and no
index which is already primed by the `randPlev` of the code. `ext` has to say that the new links are as long as the links
which they stand for together. -/
structure SumFresh (ext : Key → Nat) (newid : Key → Nat) (S : List (List Key)) (l m : List Key) : Prop where
  hi : ∀ k ∈ l, k.2.1 + randPlev < replTemp
  prime_unused : ∀ k ∈ l, primeKey randPlev k ∉ S.flatten
  prime_ext : ∀ k ∈ l, ext (primeKey randPlev k) = ext k
  ne_zero : ∀ k ∈ l, newid (primeKey randPlev k) ≠ 0
  inj : (l.map fun k => newid (primeKey randPlev k)).Nodup
  unused : ∀ k ∈ l, ∀ k' ∈ S.flatten ++ l ++ m, newid (primeKey randPlev k) ≠ k'.1
  sum_ext : ∀ p ∈ l.zip m, ext (simKey newid (primeKey randPlev p.1)) = ext p.1 + ext p.2
  final_ext : ∀ p ∈ l.zip m, ext (sumLink newid p.1) = ext p.1 + ext p.2

theorem addBlocks_ok {ext : Key → Nat} {d c fuel : Nat} (hF : Fits ext d c fuel) (hc : 2 ≤ c) (junk fresh : Int → K) {newid : Key → Nat}
    {L R : List (DTensor K)} {S : List (List Key)} {l m : List Key} (hL : IsChain ext L S l) (hR : IsChain ext R S m)
    (h2 : 2 ≤ L.length) (hS : ∀ s ∈ S, s ≠ [] ∧ s.length + 2 ≤ c) (h : SumFresh ext newid S l m) (same : Bool)
    (hsame : same = true → R = L ∧ m = l) :
    ∃ M, addBlocks fuel junk fresh newid same L R = some (.ok M) ∧ IsChain ext M S (l.map (sumLink newid)) ∧
      ∀ σ : Key → Nat, (∀ k ∈ S.flatten, σ k < ext k) →
        amp ext M (l.map (sumLink newid)) σ = amp ext L l σ + amp ext R m σ := by
  obtain ⟨l1, e1, k1, m1⟩ := linkInds_spec hL.shape hL.nodup (by simp) (fun T hT => (hL.ok T hT).nodup)
    (fun T hT i hi => (hL.plain T hT i hi).id)
  have hlo : ∀ k ∈ l, 0 ≤ k.2.1 := by
    intro k hk
    rw [← k1] at hk
    obtain ⟨i, hi, rfl⟩ := List.mem_map.1 hk
    obtain ⟨T, hT, hTi⟩ := m1 i hi
    exact (hL.plain T hT i hTi).lo
  obtain ⟨a1, a2, _⟩ := hL.shape.names
  obtain ⟨b1, b2, _⟩ := hR.shape.names
  simp only [List.length_map] at a1 a2 b1 b2
  have hlm : l.length = m.length := by omega
  obtain ⟨L', eL, cL, aL⟩ := primeLinks_ok hL randPlev (fun k hk => ⟨by have := hlo k hk; simp only [randPlev]; omega, h.hi k hk⟩)
    h.prime_unused h.prime_ext
  obtain ⟨a1', a2', _⟩ := cL.shape.names
  simp only [List.length_map] at a1' a2'
  -- the second operand, as the loop sees it
  obtain ⟨R', m', eR, cR, aR, hm'⟩ : ∃ R' m', (if same then L' else R) = R' ∧ IsChain ext R' S m' ∧
      (∀ σ, amp ext R' m' σ = amp ext R m σ) ∧ (m' = m ∨ m = l ∧ m' = m.map (primeKey randPlev)) := by
    cases same with
    | false => exact ⟨R, m, rfl, hR, fun _ => rfl, Or.inl rfl⟩
    | true =>
      obtain ⟨rfl, rfl⟩ := hsame rfl
      exact ⟨L', _, rfl, cL, aL, Or.inr ⟨rfl, rfl⟩⟩
  have hu : ∀ k ∈ l.map (primeKey randPlev), ∀ k' ∈ S.flatten ++ l.map (primeKey randPlev) ++ m', newid k ≠ k'.1 := by
    intro k hk k' hk'
    obtain ⟨j, hj, rfl⟩ := List.mem_map.1 hk
    have hP : ∀ i ∈ l, newid (primeKey randPlev j) ≠ (primeKey randPlev i).1 := fun i hi =>
      h.unused j hj i (List.mem_append_left _ (List.mem_append_right _ hi))
    rcases List.mem_append.1 hk' with hb | hb
    · rcases List.mem_append.1 hb with hb | hb
      · exact h.unused j hj k' (List.mem_append_left _ (List.mem_append_left _ hb))
      · obtain ⟨i, hi, rfl⟩ := List.mem_map.1 hb
        exact hP i hi
    · rcases hm' with rfl | ⟨rfl, rfl⟩
      · exact h.unused j hj k' (List.mem_append_right _ hb)
      · obtain ⟨i, hi, rfl⟩ := List.mem_map.1 hb
        exact hP i hi
  have hsum : ∀ p ∈ (l.map (primeKey randPlev)).zip m', ext (simKey newid p.1) = ext p.1 + ext p.2 := by
    intro p hp
    rcases hm' with rfl | ⟨rfl, rfl⟩
    · rw [List.zip_map_left, List.mem_map] at hp
      obtain ⟨q, hq, rfl⟩ := hp
      have := h.sum_ext q hq
      simp only [Prod.map]
      rw [this, h.prime_ext _ (List.of_mem_zip hq).1]; rfl
    · rw [List.zip_map, List.mem_map] at hp
      obtain ⟨q, hq, rfl⟩ := hp
      have := h.sum_ext q hq
      simp only [Prod.map]
      rw [this, h.prime_ext _ (List.of_mem_zip hq).1, h.prime_ext _ (List.of_mem_zip hq).2]
  obtain ⟨l1', l2', M, e1', e2', e3', cM, aM⟩ := sum_core hF hc junk fresh cL cR (by omega) hS
    (by intro k hk; obtain ⟨j, hj, rfl⟩ := List.mem_map.1 hk; exact h.ne_zero j hj)
    (by rw [List.map_map]; exact h.inj) hu hsum
  have back : ∀ k : Key, primeKey (-randPlev) (simKey newid (primeKey randPlev k)) = sumLink newid k := by
    intro k; simp [primeKey, simKey, sumLink]
  have hx : ∀ k ∈ l, ext (sumLink newid k) = ext (simKey newid (primeKey randPlev k)) := by
    intro k hk
    obtain ⟨n, hn, rfl⟩ := List.mem_iff_getElem.1 hk
    have hp : (l[n], m[n]'(by omega)) ∈ l.zip m := by
      rw [List.mem_iff_getElem]
      exact ⟨n, by rw [List.length_zip]; omega, by simp⟩
    rw [h.final_ext _ hp, h.sum_ext _ hp]
  have hlast : (((l.map (primeKey randPlev)).map (simKey newid)).map (primeKey (-randPlev))) = l.map (sumLink newid) := by
    rw [List.map_map, List.map_map]
    exact List.map_congr_left fun k _ => back k
  obtain ⟨N, eN, cN, aN⟩ := primeLinks_ok cM (-randPlev)
    (by
      intro k hk
      obtain ⟨j, hj, rfl⟩ := List.mem_map.1 hk
      obtain ⟨i, hi, rfl⟩ := List.mem_map.1 hj
      have h1 := hlo i hi
      have h2 := h.hi i hi
      simp only [simKey, primeKey, randPlev] at h2 ⊢
      omega)
    (by
      intro k hk hk'
      obtain ⟨j, hj, rfl⟩ := List.mem_map.1 hk
      obtain ⟨i, hi, rfl⟩ := List.mem_map.1 hj
      exact h.unused i hi _ (List.mem_append_left _ (List.mem_append_left _ hk')) rfl)
    (by
      intro k hk
      obtain ⟨j, hj, rfl⟩ := List.mem_map.1 hk
      obtain ⟨i, hi, rfl⟩ := List.mem_map.1 hj
      rw [back, hx i hi])
  rw [hlast] at cN aN
  refine ⟨N, ?_, cN, fun σ hσ => ?_⟩
  · unfold addBlocks
    rw [if_neg (by omega)]
    simp only [lift, eL, Run.bind, eR, e1', e2', e3', eN]
  · rw [aN σ, aM σ hσ, aL σ, aR σ]

/-- **C43.** The chain which `addAssumeOrth(L,R)` builds has as each of its components the sum of those of `L` and `R`. The two
chains have the same site indices (any number of them on each site, so that this is also about operators) and any links, the same or
not. Partial: chains of two or more sites with at least one index each (with one site the code ends with an error,
`C43_one_site_counterexample`), without quantum numbers, and not the call of `orthogonalize` at the end (see C63). -/
theorem C43_sum_partial {ext : Key → Nat} {d c fuel : Nat} (hF : Fits ext d c fuel) (hc : 2 ≤ c) (junk fresh : Int → K) {newid : Key → Nat}
    {L R : List (DTensor K)} {S : List (List Key)} {l m : List Key} (hL : IsChain ext L S l) (hR : IsChain ext R S m)
    (h2 : 2 ≤ L.length) (hS : ∀ s ∈ S, s ≠ [] ∧ s.length + 2 ≤ c) (h : SumFresh ext newid S l m) :
    ∃ M, addBlocks fuel junk fresh newid false L R = some (.ok M) ∧ IsChain ext M S (l.map (sumLink newid)) ∧
      ∀ σ : Key → Nat, (∀ k ∈ S.flatten, σ k < ext k) →
        amp ext M (l.map (sumLink newid)) σ = amp ext L l σ + amp ext R m σ :=
  addBlocks_ok hF hc junk fresh hL hR h2 hS h false (by simp)

/-- **C43.** Adding a state to itself, `psi.plusEq(psi)` with the same object, gives twice the state, although the links of the second operand
are primed together with those of the first. -/
theorem C43_self_partial {ext : Key → Nat} {d c fuel : Nat} (hF : Fits ext d c fuel) (hc : 2 ≤ c) (junk fresh : Int → K) {newid : Key → Nat}
    {L : List (DTensor K)} {S : List (List Key)} {l : List Key} (hL : IsChain ext L S l)
    (h2 : 2 ≤ L.length) (hS : ∀ s ∈ S, s ≠ [] ∧ s.length + 2 ≤ c) (h : SumFresh ext newid S l l) :
    ∃ M, addBlocks fuel junk fresh newid true L L = some (.ok M) ∧ IsChain ext M S (l.map (sumLink newid)) ∧
      ∀ σ : Key → Nat, (∀ k ∈ S.flatten, σ k < ext k) →
        amp ext M (l.map (sumLink newid)) σ = 2 * amp ext L l σ := by
  obtain ⟨M, h1, h2, h3⟩ := addBlocks_ok hF hc junk fresh hL hL h2 hS h true (fun _ => ⟨rfl, rfl⟩)
  exact ⟨M, h1, h2, fun σ hσ => by rw [h3 σ hσ, two_mul]⟩

/-- **C43.** Operands of different length are refused. -/
theorem C43_length (fuel : Nat) (junk fresh : Int → K) (newid : Key → Nat) (same : Bool) {L R : List (DTensor K)}
    (h : R.length ≠ L.length) : addBlocks fuel junk fresh newid same L R = some .throw := by
  rw [addBlocks, if_pos h]

/-- **C43.** The claim is false of chains of one site: there the result is an error. -/
theorem C43_one_site_counterexample (fuel : Nat) (junk fresh : Int → K) (newid : Key → Nat) (A B : DTensor K) :
    addBlocks fuel junk fresh newid false [A] [B] = some .throw := by
  simp [addBlocks, primeLinks, linkInds, replaceLinkInds, bonds, lift, Res.bind, Run.bind, sumSites]

/-! ## A concrete sum -/

/-- Lengths: links of a sum have length 4, everything else 2. -/
def exExt (k : Key) : Nat := if 100 < k.1 then 4 else 2

theorem ex1_sum : IsMPS exExt ex1 [K1, K2] [K3] := by
  refine ⟨ex1_mps.shape, ex1_mps.nodup, fun T hT => ?_, ex1_mps.plain⟩
  simp only [ex1, List.mem_cons, List.not_mem_nil, or_false] at hT
  rcases hT with rfl | rfl <;> exact ⟨by decide, by decide, by decide, by decide⟩

theorem ex2_sum : IsMPS exExt ex2 [K1, K2] [K3] := by
  refine ⟨ex2_mps.shape, ex2_mps.nodup, fun T hT => ?_, ex2_mps.plain⟩
  simp only [ex2, List.mem_cons, List.not_mem_nil, or_false] at hT
  rcases hT with rfl | rfl <;> exact ⟨by decide, by decide, by decide, by decide⟩

/-- The hypotheses of `C43_sum_partial` hold of two states with the same sites and the same link. -/
example : SumFresh exExt exId [[K1], [K2]] [K3] [K3] ∧ Fits exExt 4 3 100 :=
  ⟨⟨by decide +kernel, by decide +kernel, by decide +kernel, by decide +kernel, by decide +kernel, by decide +kernel,
    by decide +kernel, by decide +kernel⟩,
    ⟨by decide, fun k => by unfold exExt; split <;> omega, by decide, by decide⟩⟩

/-- The components of the sum, as the code computes it. -/
def exSum (same : Bool) (L R : List (DTensor Int)) (v : List Nat) : Run Int :=
  Run.bind (addBlocks 100 (fun _ => 77) (fun _ => 78) exId same L R) fun M =>
    some (.ok (amp exExt M [sumLink exId K3] (assign 0 [K1, K2] v)))

example : ∀ i < 2, ∀ j < 2, exSum false ex1 ex2 [i, j] =
    some (.ok (amp exExt ex1 [K3] (assign 0 [K1, K2] [i, j]) + amp exExt ex2 [K3] (assign 0 [K1, K2] [i, j]))) := by
  decide +kernel

example : ∀ i < 2, ∀ j < 2, exSum true ex1 ex1 [i, j] =
    some (.ok (2 * amp exExt ex1 [K3] (assign 0 [K1, K2] [i, j]))) := by
  decide +kernel

end Verif.MPS
