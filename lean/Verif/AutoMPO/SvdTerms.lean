import Verif.AutoMPO.ExactProps
import Verif.AutoMPO.SvdParts

/-!
# The parts of a term left and right of a site (C65)
-/

namespace Verif.AutoMPO

variable {K : Type*} {Q : Type*} [AddCommMonoid Q] [DecidableEq Q]

section Filter

theorem filter_lt_split {l : List SiteTerm} (hs : Sorted l) (n : Int) :
    l.filter (fun t => t.i < n + 1) = l.filter (fun t => t.i < n) ++ l.filter (fun t => t.i = n) := by
  induction l with
  | nil => rfl
  | cons a l ih =>
    rw [Sorted, List.pairwise_cons] at hs
    have ih := ih hs.2
    rcases lt_trichotomy a.i n with h | h | h
    · rw [List.filter_cons_of_pos (by simp; omega), List.filter_cons_of_pos (by simpa using h),
        List.filter_cons_of_neg (by simp; omega), ih, List.cons_append]
    · have h0 : l.filter (fun t => t.i < n) = [] := by
        rw [List.filter_eq_nil_iff]
        intro b hb
        have := hs.1 b hb
        simp
        omega
      rw [List.filter_cons_of_pos (by simp; omega), List.filter_cons_of_neg (by simp; omega),
        List.filter_cons_of_pos (by simpa using h), ih, h0]
      rfl
    · rw [List.filter_cons_of_neg (by simp; omega), List.filter_cons_of_neg (by simp; omega),
        List.filter_cons_of_neg (by simp; omega), ih]

theorem filter_gt_split {l : List SiteTerm} (hs : Sorted l) (n : Int) :
    l.filter (fun t => n < t.i) = l.filter (fun t => t.i = n + 1) ++ l.filter (fun t => n + 1 < t.i) := by
  induction l with
  | nil => rfl
  | cons a l ih =>
    rw [Sorted, List.pairwise_cons] at hs
    have ih := ih hs.2
    rcases lt_trichotomy a.i (n + 1) with h | h | h
    · rw [List.filter_cons_of_neg (by simp; omega), List.filter_cons_of_neg (by simp; omega),
        List.filter_cons_of_neg (by simp; omega), ih]
    · rw [List.filter_cons_of_pos (by simp; omega), List.filter_cons_of_pos (by simpa using h),
        List.filter_cons_of_neg (by simp; omega), ih, List.cons_append]
    · have h0 : l.filter (fun t => t.i = n + 1) = [] := by
        rw [List.filter_eq_nil_iff]
        intro b hb
        have := hs.1 b hb
        simp
        omega
      rw [List.filter_cons_of_pos (by simp; omega), List.filter_cons_of_neg (by simp; omega),
        List.filter_cons_of_pos (by simp; omega), ih, h0]
      rfl

theorem filter_append {l : List SiteTerm} (hs : Sorted l) (n : Int) :
    l.filter (fun t => t.i < n + 1) ++ l.filter (fun t => n < t.i) = l := by
  induction l with
  | nil => rfl
  | cons a l ih =>
    rw [Sorted, List.pairwise_cons] at hs
    have ih := ih hs.2
    by_cases h : a.i < n + 1
    · rw [List.filter_cons_of_pos (by simpa using h), List.filter_cons_of_neg (by simp; omega), List.cons_append, ih]
    · have h0 : l.filter (fun t => t.i < n + 1) = [] := by
        rw [List.filter_eq_nil_iff]
        intro b hb
        have := hs.1 b hb
        simp
        omega
      rw [h0] at ih
      rw [List.filter_cons_of_neg (by simpa using h), h0, List.filter_cons_of_pos (by simp; omega), List.nil_append]
      rw [List.nil_append] at ih
      rw [ih]

theorem takeWhile_eq_filter {p : Int → Prop} [DecidablePred p] (hp : ∀ a b, a ≤ b → p b → p a) :
    ∀ {l : List SiteTerm}, Sorted l → l.takeWhile (fun t => decide (p t.i)) = l.filter (fun t => decide (p t.i))
  | [], _ => rfl
  | a :: l, hs => by
    rw [Sorted, List.pairwise_cons] at hs
    by_cases h : p a.i
    · rw [List.takeWhile_cons_of_pos (by simpa using h), List.filter_cons_of_pos (by simpa using h),
        takeWhile_eq_filter hp hs.2]
    · rw [List.takeWhile_cons_of_neg (by simpa using h), List.filter_cons_of_neg (by simpa using h), eq_comm,
        List.filter_eq_nil_iff]
      intro b hb
      simpa using fun h' => h (hp _ _ (hs.1 b hb) h')

theorem dropWhile_eq_filter {p : Int → Prop} [DecidablePred p] (hp : ∀ a b, a ≤ b → p b → p a) :
    ∀ {l : List SiteTerm}, Sorted l → l.dropWhile (fun t => decide (p t.i)) = l.filter (fun t => decide ¬p t.i)
  | [], _ => rfl
  | a :: l, hs => by
    rw [Sorted, List.pairwise_cons] at hs
    by_cases h : p a.i
    · rw [List.dropWhile_cons_of_pos (by simpa using h), List.filter_cons_of_neg (by simpa using h),
        dropWhile_eq_filter hp hs.2]
    · rw [List.dropWhile_cons_of_neg (by simpa using h), eq_comm, List.filter_eq_self]
      intro b hb
      rcases List.mem_cons.1 hb with rfl | hb
      · simpa using h
      · simpa using fun h' => h (hp _ _ (hs.1 b hb) h')

theorem decompose_eq {l : List SiteTerm} (hs : Sorted l) (n : Int) : decomposeTerm n l =
    (l.filter (fun t => t.i < n), l.filter (fun t => t.i = n), l.filter (fun t => n < t.i)) := by
  have h1 := takeWhile_eq_filter (p := fun i => ¬i ≥ n) (fun a b h1 h2 => by omega) hs
  have h2 := dropWhile_eq_filter (p := fun i => ¬i ≥ n) (fun a b h1 h2 => by omega) hs
  have hs' : Sorted (l.filter fun t => decide ¬¬t.i ≥ n) := List.Pairwise.filter _ hs
  have h3 := takeWhile_eq_filter (p := fun i => ¬i > n) (fun a b h1 h2 => by omega) hs'
  have h4 := dropWhile_eq_filter (p := fun i => ¬i > n) (fun a b h1 h2 => by omega) hs'
  rw [decomposeTerm]
  rw [h1, h2, h3, h4, List.filter_filter, List.filter_filter]
  refine Prod.ext ?_ (Prod.ext ?_ ?_)
  · exact List.filter_congr fun t _ => by simp
  · refine List.filter_congr fun t _ => ?_
    rw [← Bool.decide_and]
    congr 1
    simp only [eq_iff_iff]
    omega
  · refine List.filter_congr fun t _ => ?_
    rw [← Bool.decide_and]
    congr 1
    simp only [eq_iff_iff]
    omega

end Filter

section Parts

variable {t : HTerm K}

theorem vl_eq (hs : Sorted t.ops) (n : Nat) : vl (t, n) = t.ops.filter (fun u => u.i < (n : Int)) := by
  rw [vl, decompose_eq hs]

theorem vm_eq (hs : Sorted t.ops) (n : Nat) : vm (t, n) = t.ops.filter (fun u => u.i = (n : Int)) := by
  rw [vm, decompose_eq hs]

theorem vr_eq (hs : Sorted t.ops) (n : Nat) : vr (t, n) = t.ops.filter (fun u => (n : Int) < u.i) := by
  rw [vr, decompose_eq hs]

theorem vl_succ (hs : Sorted t.ops) (n : Nat) : vl (t, n + 1) = vl (t, n) ++ vm (t, n) := by
  rw [vl_eq hs, vl_eq hs, vm_eq hs, ← filter_lt_split hs]
  simp

theorem vr_succ (hs : Sorted t.ops) (n : Nat) : vm (t, n + 1) ++ vr (t, n + 1) = vr (t, n) := by
  rw [vr_eq hs, vm_eq hs, vr_eq hs, filter_gt_split hs n]
  simp

theorem vl_vr (hs : Sorted t.ops) (n : Nat) : vl (t, n + 1) ++ vr (t, n) = t.ops := by
  rw [vl_eq hs, vr_eq hs]
  conv_rhs => rw [← filter_append hs n]
  simp

omit [DecidableEq Q] in
theorem rq_eq (qn : SiteTerm → Q) (hs : Sorted t.ops) (n : Nat) : rq qn (t, n) = lq qn (t, n + 1) := by
  rw [rq, lq, vl_succ hs, calcQN, calcQN, calcQN, List.map_append, List.sum_append]

theorem first_mem (hne : t.ops ≠ []) : t.first ∈ t.ops := by
  obtain ⟨a, l, h⟩ := List.exists_cons_of_ne_nil hne
  simp [HTerm.first, h]

theorem last_eq (hne : t.ops ≠ []) : t.last = t.ops.getLast hne := by
  rw [HTerm.last, List.getLastD_eq_getLast?, List.getLast?_eq_some_getLast hne]
  rfl

theorem last_mem (hne : t.ops ≠ []) : t.last ∈ t.ops := by
  rw [last_eq hne]
  exact List.getLast_mem hne

theorem first_le (hs : Sorted t.ops) {u : SiteTerm} (hu : u ∈ t.ops) : t.first.i ≤ u.i := by
  rw [HTerm.first]
  cases h : t.ops with
  | nil => simp [h] at hu
  | cons a l =>
    rw [h] at hu hs
    rw [Sorted, List.pairwise_cons] at hs
    rcases List.mem_cons.1 hu with rfl | hu
    · exact le_refl _
    · exact hs.1 u hu

theorem le_last (hs : Sorted t.ops) {u : SiteTerm} (hu : u ∈ t.ops) : u.i ≤ t.last.i := by
  have hne : t.ops ≠ [] := List.ne_nil_of_mem hu
  rw [last_eq hne]
  have : ∀ (l : List SiteTerm) (hl : l ≠ []), Sorted l → ∀ v ∈ l, v.i ≤ (l.getLast hl).i := by
    intro l
    induction l with
    | nil => simp
    | cons a l ih =>
      intro hl h v hv
      rw [Sorted, List.pairwise_cons] at h
      by_cases h0 : l = []
      · subst h0
        simp at hv
        simp [hv]
      · rw [List.getLast_cons h0]
        rcases List.mem_cons.1 hv with rfl | hv
        · exact h.1 _ (List.getLast_mem h0)
        · exact ih h0 h.2 v hv
  exact this _ hne hs u hu

theorem vl_ne (hs : Sorted t.ops) (hne : t.ops ≠ []) (n : Nat) : vl (t, n) ≠ [] ↔ t.first.i < (n : Int) := by
  rw [vl_eq hs, ne_eq, List.filter_eq_nil_iff]
  constructor
  · intro h
    by_contra h'
    exact h fun u hu => by have := first_le hs hu; simp; omega
  · intro h h'
    exact h' _ (first_mem hne) (by simpa using h)

theorem vr_ne (hs : Sorted t.ops) (hne : t.ops ≠ []) (n : Nat) : vr (t, n) ≠ [] ↔ (n : Int) < t.last.i := by
  rw [vr_eq hs, ne_eq, List.filter_eq_nil_iff]
  constructor
  · intro h
    by_contra h'
    exact h fun u hu => by have := le_last hs hu; simp; omega
  · intro h h'
    exact h' _ (last_mem hne) (by simpa using h)

/-- The operators which are put on site `n` for a term. -/
def locOps (n : Int) (l : List SiteTerm) : List SiteTerm :=
  match onsiteOps n l with
  | .ok x => x
  | _ => []

theorem onsite_eq (n : Int) {l : List SiteTerm} (hs : Sorted l) : onsiteOps n l = .ok (locOps n l) := by
  have : ∃ x, onsiteOps n l = .ok x := by
    rw [onsiteOps, decompose_eq hs]
    simp only
    split
    · exact ⟨_, rfl⟩
    · rename_i h
      obtain ⟨a, m, hm⟩ := List.exists_cons_of_ne_nil h
      rw [hm, rewriteFermionic]
      have hall : ∀ u ∈ a :: m, u.i = n := by
        intro u hu
        rw [← hm, List.mem_filter] at hu
        simpa using hu.2
      rw [if_neg]
      · exact ⟨_, rfl⟩
      · simp only [List.any_eq_true, decide_eq_true_eq, not_exists, not_and, not_not]
        intro u hu
        rw [hall u hu, hall a (by simp)]
  obtain ⟨x, hx⟩ := this
  rw [locOps, hx]

/-- The operators on a site depend on those of the term on the site and the parity of those on the left. -/
theorem locOps_congr (n : Int) {l l' : List SiteTerm} (hs : Sorted l) (hs' : Sorted l')
    (h1 : fermiProd (l.filter fun t => t.i < n) = fermiProd (l'.filter fun t => t.i < n))
    (h2 : l.filter (fun t => t.i = n) = l'.filter (fun t => t.i = n)) : locOps n l = locOps n l' := by
  rw [locOps, locOps, onsiteOps, onsiteOps, decompose_eq hs, decompose_eq hs']
  simp only [h1, h2]

/-- Left of the first operator there are identities. -/
theorem locOps_left (n : Int) {l : List SiteTerm} (hs : Sorted l) (h : ∀ u ∈ l, n < u.i) : locOps n l = [⟨nId, n⟩] := by
  have h1 : l.filter (fun t => t.i < n) = [] := by
    rw [List.filter_eq_nil_iff]
    intro u hu
    have := h u hu
    simp
    omega
  have h2 : l.filter (fun t => t.i = n) = [] := by
    rw [List.filter_eq_nil_iff]
    intro u hu
    have := h u hu
    simp
    omega
  rw [locOps, onsiteOps, decompose_eq hs]
  simp [h1, h2, fermiProd]

/-- Right of the last operator of an even term there are identities. -/
theorem locOps_right (n : Int) {l : List SiteTerm} (hs : Sorted l) (he : fermiProd l = false) (h : ∀ u ∈ l, u.i < n) :
    locOps n l = [⟨nId, n⟩] := by
  have h1 : l.filter (fun t => t.i < n) = l := by
    rw [List.filter_eq_self]
    intro u hu
    simpa using h u hu
  have h2 : l.filter (fun t => t.i = n) = [] := by
    rw [List.filter_eq_nil_iff]
    intro u hu
    have := h u hu
    simp
    omega
  rw [locOps, onsiteOps, decompose_eq hs]
  simp [h1, h2, he]

/-- The names which the rewriting makes. -/
def madeNames : List Name := [nAdagup, nAup, star nAdagdn nFup, star nAdn nFup, nA, nAdag]

theorem tab1 : ∀ c ∈ [nCdagup, nCup, nCdagdn, nCdn, nC, nCdag], fermionicTerm c ∈ madeNames := by decide

theorem tab2 : ∀ a ∈ [nCdagup, nCup, nCdagdn, nCdn, nC, nCdag], ∀ b ∈ [nCdagup, nCup, nCdagdn, nCdn, nC, nCdag],
    fermionicTerm a = fermionicTerm b → a = b := by decide

theorem tab3 : ∀ c ∈ [nCdagup, nCup, nCdagdn, nCdn, nC, nCdag], fermiName c = true := by decide

theorem fermionicTerm_not {c : Name} (h : c ∉ [nCdagup, nCup, nCdagdn, nCdn, nC, nCdag]) : fermionicTerm c = c := by
  rw [fermionicTerm, rewriteName]
  split
  · rename_i p hp
    have h1 := List.mem_of_find?_eq_some hp
    have h2 : p.1 = c := by simpa using List.find?_some hp
    exfalso
    simp only [List.mem_cons, List.not_mem_nil, or_false] at h1 h
    rcases h1 with rfl | rfl | rfl | rfl | rfl | rfl <;> simp_all
  · rfl

theorem fermionicTerm_inj {a b : Name} (ha : a ∉ madeNames) (hb : b ∉ madeNames) (h : fermionicTerm a = fermionicTerm b) :
    a = b := by
  have key : ∀ c : Name, c ∉ madeNames → (fermionicTerm c = c) ∨
      (c ∈ [nCdagup, nCup, nCdagdn, nCdn, nC, nCdag] ∧ fermionicTerm c ∈ madeNames) := by
    intro c hc
    by_cases h : c ∈ [nCdagup, nCup, nCdagdn, nCdn, nC, nCdag]
    · right
      exact ⟨h, tab1 c h⟩
    · left
      exact fermionicTerm_not h
  rcases key a ha with h1 | ⟨h1, h1'⟩
  · rcases key b hb with h2 | ⟨h2, h2'⟩
    · rw [← h1, ← h2, h]
    · rw [← h, h1] at h2'
      exact absurd h2' ha
  · rcases key b hb with h2 | ⟨h2, h2'⟩
    · rw [h, h2] at h1'
      exact absurd h1' hb
    · exact tab2 a h1 b h2 h

/-- The operators put on a site tell those of the term, for the same parities and names which the rewriting keeps
different. -/
theorem locOps_inj (n : Int) {l l' : List SiteTerm} (hs : Sorted l) (hs' : Sorted l')
    (hn : ∀ u ∈ l, ∀ v ∈ l', fermionicTerm u.op = fermionicTerm v.op → u.op = v.op)
    (h0 : l.filter (fun t => t.i < n) = []) (h0' : l'.filter (fun t => t.i < n) = [])
    (hne : l.filter (fun t => t.i = n) ≠ []) (hne' : l'.filter (fun t => t.i = n) ≠ [])
    (hf : fermiProd (l.filter fun t => t.i = n) = fermiProd (l'.filter fun t => t.i = n))
    (h : locOps n l = locOps n l') : l.filter (fun t => t.i = n) = l'.filter (fun t => t.i = n) := by
  have e1 := onsite_eq n hs
  have e2 := onsite_eq n hs'
  rw [h, ← e2, onsiteOps, onsiteOps, decompose_eq hs, decompose_eq hs'] at e1
  simp only [h0, h0', if_neg hne, if_neg hne'] at e1
  have hm : ∀ u ∈ l.filter (fun t => t.i = n), u.i = n := fun u hu => by
    rw [List.mem_filter] at hu
    simpa using hu.2
  have hm' : ∀ u ∈ l'.filter (fun t => t.i = n), u.i = n := fun u hu => by
    rw [List.mem_filter] at hu
    simpa using hu.2
  have hnn : ∀ u ∈ l.filter (fun t => t.i = n), ∀ v ∈ l'.filter (fun t => t.i = n),
      fermionicTerm u.op = fermionicTerm v.op → u.op = v.op := fun u hu v hv =>
    hn u (List.mem_filter.1 hu).1 v (List.mem_filter.1 hv).1
  generalize l.filter (fun t => t.i = n) = a at *
  generalize l'.filter (fun t => t.i = n) = b at *
  obtain ⟨x, a, rfl⟩ := List.exists_cons_of_ne_nil hne
  obtain ⟨y, b, rfl⟩ := List.exists_cons_of_ne_nil hne'
  have any : ∀ (z : SiteTerm) (c : List SiteTerm), (∀ u ∈ z :: c, u.i = n) →
      (z :: c).any (fun st => decide (st.i ≠ z.i)) = false := by
    intro z c hc
    simp only [List.any_eq_false, decide_eq_true_eq, not_not]
    intro u hu
    rw [hc u hu, hc z (by simp)]
  have hg : ∀ st : SiteTerm, (if fermiName st.op = true then (⟨fermionicTerm st.op, st.i⟩ : SiteTerm) else st) =
      ⟨fermionicTerm st.op, st.i⟩ := by
    intro st
    split
    · rfl
    · rename_i h
      rw [fermionicTerm_not]
      intro h'
      exact h (tab3 _ h')
  have hnil : fermiProd [] = false := rfl
  rw [rewriteFermionic, rewriteFermionic, any x a hm, any y b hm', hf, hnil] at e1
  simp only [hg, Bool.false_eq_true, if_false, hm x (by simp), hm' y (by simp), Res.ok.injEq, Bool.false_and,
    Bool.not_false, Bool.true_and, Bool.false_or] at e1
  cases hp : fermiProd (y :: b) with
  | false => simpa [hp] using e1
  | true =>
    simp only [hp, if_true, List.append_cancel_right_eq] at e1
    have inj : ∀ c d : List SiteTerm, (∀ u ∈ c, ∀ v ∈ d, fermionicTerm u.op = fermionicTerm v.op → u.op = v.op) →
        c.map (fun st => (⟨fermionicTerm st.op, st.i⟩ : SiteTerm)) = d.map (fun st => ⟨fermionicTerm st.op, st.i⟩) →
        c = d := by
      intro c
      induction c with
      | nil =>
        intro d _ h
        cases d with
        | nil => rfl
        | cons => simp at h
      | cons u c ih =>
        intro d hc h
        cases d with
        | nil => simp at h
        | cons v d =>
          simp only [List.map_cons, List.cons.injEq, SiteTerm.mk.injEq] at h
          have e := hc u (by simp) v (by simp) h.1.1
          rw [ih d (fun w hw w' hw' => hc w (by simp [hw]) w' (by simp [hw'])) h.2]
          obtain ⟨uo, ui⟩ := u
          obtain ⟨vo, vi⟩ := v
          simp only at e h
          rw [e, h.1.2]
    exact inj _ _ hnn e1

end Parts

end Verif.AutoMPO
