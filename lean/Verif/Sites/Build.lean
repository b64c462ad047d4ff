import Verif.Sites.Model

/-! # What the `op` method of a site gives for its calls of `set` -/

namespace Verif.Sites

section

variable {R : Type*} [Zero R] {d : Nat}

/-- The matrix of the calls. -/
def mat (d : Nat) (l : List (Nat × Nat × R)) : Matrix (Fin d) (Fin d) R :=
  l.foldl (fun M p => put M p.1 p.2.1 p.2.2) fun _ _ => 0

theorem put_fold (l : List (Nat × Nat × R)) (M : Matrix (Fin d) (Fin d) R) (r c : Fin d) :
    l.foldl (fun M p => put M p.1 p.2.1 p.2.2) M r c =
      l.foldl (fun x p => if p.1 = c.val + 1 ∧ p.2.1 = r.val + 1 then p.2.2 else x) (M r c) := by
  induction l generalizing M with
  | nil => rfl
  | cons p l ih => rw [List.foldl_cons, ih, List.foldl_cons]; rfl

theorem mat_apply (l : List (Nat × Nat × R)) (r c : Fin d) :
    mat d l r c = l.foldl (fun x p => if p.1 = c.val + 1 ∧ p.2.1 = r.val + 1 then p.2.2 else x) 0 :=
  put_fold l _ r c

theorem mat_ne_zero {l : List (Nat × Nat × R)} {r c : Fin d} (h : mat d l r c ≠ 0) :
    ∃ p ∈ l, p.1 = c.val + 1 ∧ p.2.1 = r.val + 1 := by
  rw [mat_apply] at h
  by_contra hc
  push Not at hc
  apply h
  clear h
  induction l with
  | nil => rfl
  | cons p l ih =>
    rw [List.foldl_cons, if_neg (fun hp => hc p List.mem_cons_self hp.1 hp.2)]
    exact ih fun q hq => hc q (List.mem_cons_of_mem _ hq)

theorem fold_none (l : List (Nat × Nat × R)) (st : Filling R d) :
    Res.foldM (set none) st l = .ok (st.1, l.foldl (fun M p => put M p.1 p.2.1 p.2.2) st.2) := by
  induction l generalizing st with
  | nil => rfl
  | cons p l ih => rw [Res.foldM_cons, set, Res.bind_ok, ih]; rfl

theorem fold_some (q : QNs) (l : List (Nat × Nat × R)) (f : List Int) (M : Matrix (Fin d) (Fin d) R) :
    Res.foldM (set (some q)) (some f, M) l = if ∀ p ∈ l, q.flux p.1 p.2.1 = f then
      .ok (some f, l.foldl (fun M p => put M p.1 p.2.1 p.2.2) M) else .throw := by
  induction l generalizing M with
  | nil => simp
  | cons p l ih =>
    rw [Res.foldM_cons]
    by_cases hp : q.flux p.1 p.2.1 = f
    · simp only [set, Option.getD_some, hp, ne_eq, not_true_eq_false, if_false, Res.bind_ok, ih, List.forall_mem_cons,
        true_and, List.foldl_cons]
    · simp [set, hp]

/-- The calls of an operator that all have the same flux. -/
def Uniform (q : Option QNs) (l : List (Nat × Nat × R)) : Prop :=
  ∀ q', q = some q' → ∀ p ∈ l, ∀ p' ∈ l, q'.flux p.1 p.2.1 = q'.flux p'.1 p'.2.1

theorem op_ok {q : Option QNs} {tab : String → Option (List (Nat × Nat × R))} {name : String} {l : List (Nat × Nat × R)}
    (h : tab name = some l) (hu : Uniform q l) : op d q tab name = .ok (mat d l) := by
  unfold op
  rw [h]
  cases q with
  | none => simp [fold_none, Res.map, mat]
  | some q =>
    cases l with
    | nil => rfl
    | cons p l =>
      have : ∀ p' ∈ l, q.flux p'.1 p'.2.1 = q.flux p.1 p.2.1 := fun p' hp' =>
        hu q rfl p' (List.mem_cons_of_mem _ hp') p List.mem_cons_self
      simp only [Res.foldM_cons, set, Option.getD_none, ne_eq, not_true_eq_false, if_false, Res.bind_ok, fold_some]
      rw [if_pos this]
      rfl

theorem op_throw {q : QNs} {tab : String → Option (List (Nat × Nat × R))} {name : String} {l : List (Nat × Nat × R)}
    (h : tab name = some l) {p p' : Nat × Nat × R} (hp : p ∈ l) (hp' : p' ∈ l)
    (hne : q.flux p.1 p.2.1 ≠ q.flux p'.1 p'.2.1) : op d (some q) tab name = .throw := by
  unfold op
  rw [h]
  cases l with
  | nil => simp at hp
  | cons p0 l =>
    have : ¬∀ p' ∈ l, q.flux p'.1 p'.2.1 = q.flux p0.1 p0.2.1 := by
      intro hall
      have hall' : ∀ p' ∈ p0 :: l, q.flux p'.1 p'.2.1 = q.flux p0.1 p0.2.1 := by
        intro p' hp'
        rcases List.mem_cons.1 hp' with rfl | hp'
        · rfl
        · exact hall p' hp'
      exact hne ((hall' p hp).trans (hall' p' hp').symm)
    simp only [Res.foldM_cons, set, Option.getD_none, ne_eq, not_true_eq_false, if_false, Res.bind_ok, fold_some]
    rw [if_neg this]
    rfl

theorem op_eq {q : Option QNs} {tab : String → Option (List (Nat × Nat × R))} {name : String}
    {M : Matrix (Fin d) (Fin d) R} (h : op d q tab name = .ok M) :
    ∃ l, tab name = some l ∧ Uniform q l ∧ M = mat d l := by
  cases hl : tab name with
  | none => unfold op at h; rw [hl] at h; cases h
  | some l =>
    have hu : Uniform q l := by
      rintro q' rfl p hp p' hp'
      by_contra hne
      rw [op_throw hl hp hp' hne] at h
      cases h
    rw [op_ok hl hu] at h
    exact ⟨l, rfl, hu, (Res.ok.inj h).symm⟩

/-- Whatever the site, its index and the name, an operator that is returned has a definite flux. -/
theorem C80_flux {q : QNs} {tab : String → Option (List (Nat × Nat × R))} {name : String}
    {M : Matrix (Fin d) (Fin d) R} (h : op d (some q) tab name = .ok M) :
    ∃ f, ∀ r c, M r c ≠ 0 → q.flux (c.val + 1) (r.val + 1) = f := by
  obtain ⟨l, _, hu, rfl⟩ := op_eq h
  cases l with
  | nil => exact ⟨[], fun r c hn => absurd rfl hn⟩
  | cons p0 l =>
    refine ⟨q.flux p0.1 p0.2.1, fun r c hn => ?_⟩
    obtain ⟨p, hp, h1, h2⟩ := mat_ne_zero hn
    rw [← h1, ← h2]
    exact hu q rfl p hp p0 List.mem_cons_self

theorem uniform_none (l : List (Nat × Nat × R)) : Uniform none l := by rintro q' ⟨⟩

/-- The calls at `i = a+1, ..., a+k` for the site index, at most one for each value. -/
theorem mat_range (a k : Nat) (b : Nat → Nat) (v : Nat → R) (r c : Fin d) :
    mat d ((List.range' (a + 1) k).map fun i => (i, b i, v i)) r c =
      if a ≤ c.val ∧ c.val < a + k ∧ b (c.val + 1) = r.val + 1 then v (c.val + 1) else 0 := by
  rw [mat_apply, List.foldl_map]
  induction k with
  | zero => rw [if_neg (by omega)]; rfl
  | succ k ih =>
    rw [List.range'_concat, List.foldl_append, ih]
    simp only [List.foldl_cons, List.foldl_nil, one_mul]
    by_cases h1 : a + 1 + k = c.val + 1
    · by_cases h2 : b (a + 1 + k) = r.val + 1
      · rw [if_pos ⟨h1, h2⟩, if_pos ⟨by omega, by omega, by rw [← h1]; exact h2⟩, h1]
      · rw [if_neg (fun h => h2 h.2), if_neg (by omega), if_neg (fun h => h2 (by rw [h1]; exact h.2.2))]
    · rw [if_neg (fun h => h1 h.1)]
      by_cases h3 : a ≤ c.val ∧ c.val < a + k ∧ b (c.val + 1) = r.val + 1
      · rw [if_pos h3, if_pos ⟨h3.1, by omega, h3.2.2⟩]
      · rw [if_neg h3, if_neg (fun h => h3 ⟨h.1, by omega, h.2.2⟩)]

end

end Verif.Sites
