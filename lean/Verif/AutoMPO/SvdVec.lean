import Verif.AutoMPO.SvdProps

/-!
# The vectors of the default conversion (C65)
-/

namespace Verif.AutoMPO

open Finset

variable {K : Type*} [CommRing K] {Q : Type*} [AddCommMonoid Q] [DecidableEq Q]
variable {qn : SiteTerm → Q} {terms : List (HTerm K)} {N : Nat} {near : K → K → Bool} {s : Parts Q K}

/-- The element of a term on site `n`. -/
def elemAt (qn : SiteTerm → Q) (s : Parts Q K) (n : Nat) (t : HTerm K) : Elem Q K := elemOf qn s.right (opsOf (t, n)) (t, n)

open scoped Classical in
/-- The terms with operators on both sides of site `n`, or on it. -/
noncomputable def vis (terms : List (HTerm K)) (n : Nat) : Finset (HTerm K) :=
  terms.toFinset.filter fun t => t.first.i ≤ (n : Int) ∧ (n : Int) ≤ t.last.i

omit [CommRing K] in
theorem mem_vis {n : Nat} {t : HTerm K} : t ∈ vis terms n ↔ t ∈ terms ∧ t.first.i ≤ (n : Int) ∧ (n : Int) ≤ t.last.i := by
  simp [vis]

theorem fermi_split (hok : TermsOk qn terms N) {t : HTerm K} (ht : t ∈ terms) (n : Nat) :
    fermiProd (vl (t, n + 1)) = fermiProd (vr (t, n)) := by
  have := hok.even t ht
  rw [← vl_vr (hok.sorted t ht) n, fermiProd_append] at this
  cases h1 : fermiProd (vl (t, n + 1)) <;> cases h2 : fermiProd (vr (t, n)) <;> simp [h1, h2] at this ⊢

/-- Elements which agree except perhaps in their coefficients. -/
def Agree (e f : Elem Q K) : Prop :=
  e.row = f.row ∧ e.col = f.col ∧ e.rowqn = f.rowqn ∧ e.colqn = f.colqn ∧ e.ops = f.ops

/-- An element of a starting term is that of no other term. -/
theorem agree_start (hok : TermsOk qn terms N) (hi : Inv qn near opsOf (terms.flatMap visitsOf) s) {n : Nat}
    {t u : HTerm K} (ht : t ∈ vis terms n) (hu : u ∈ vis terms n) (h0 : vl (t, n) = [])
    (h : Agree (elemAt qn s n t) (elemAt qn s n u)) : t = u := by
  obtain ⟨ht, t1, t2⟩ := mem_vis.1 ht
  obtain ⟨hu, u1, u2⟩ := mem_vis.1 hu
  have hst := hok.sorted t ht
  have hsu := hok.sorted u hu
  obtain ⟨h1, h2, h3, h4, h5⟩ := h
  simp only [elemAt, elemOf, h0, if_true] at h1 h2 h3 h4 h5
  have h0' : vl (u, n) = [] := by
    by_contra h
    simp [h] at h1
  have hr : vr (t, n) = vr (u, n) := by
    by_cases hrt : vr (t, n) = []
    · rw [hrt]
      by_contra h
      simp [hrt, Ne.symm h] at h2
    · have hru : vr (u, n) ≠ [] := by
        intro h
        simp [hrt, h] at h2
      simp only [hrt, hru, if_false, Option.some.injEq] at h2
      have m1 : t ∈ block qn terms n (rq qn (t, n)) :=
        mem_block.2 ⟨ht, ⟨t1, (vr_ne hst (hok.ne t ht) n).1 hrt⟩, (rq_eq qn hst n).symm⟩
      rw [← h4] at h2
      exact (List.idxOf_inj (right_in hok hi m1)).1 h2
  have hm : vm (t, n) = vm (u, n) := by
    rw [vm_eq hst, vm_eq hsu]
    have pt : fermiProd (vm (t, n)) = fermiProd (vr (t, n)) := by
      rw [← fermi_split hok ht n, vl_succ hst, h0, List.nil_append]
    have pu : fermiProd (vm (u, n)) = fermiProd (vr (u, n)) := by
      rw [← fermi_split hok hu n, vl_succ hsu, h0', List.nil_append]
    have net : vm (t, n) ≠ [] := by
      intro h
      have : vl (t, n + 1) ≠ [] := (vl_ne hst (hok.ne t ht) _).2 (by omega)
      rw [vl_succ hst, h0, h] at this
      exact this rfl
    have neu : vm (u, n) ≠ [] := by
      intro h
      have : vl (u, n + 1) ≠ [] := (vl_ne hsu (hok.ne u hu) _).2 (by omega)
      rw [vl_succ hsu, h0', h] at this
      exact this rfl
    rw [vm_eq hst] at net pt
    rw [vm_eq hsu] at neu pu
    rw [vl_eq hst] at h0
    rw [vl_eq hsu] at h0'
    exact locOps_inj (n : Int) hst hsu (fun a ha b hb => hok.names t ht a ha u hu b hb) h0 h0' net neu (by rw [pt, pu, hr]) h5
  refine hok.inj ht hu ?_
  rw [← vl_vr hst n, ← vl_vr hsu n, vl_succ hst, vl_succ hsu, h0, h0', hm, hr]

/-- The element of a term which has started tells its block and its right part. -/
theorem agree_cross (hok : TermsOk qn terms N) (hi : Inv qn near opsOf (terms.flatMap visitsOf) s) {n : Nat}
    {t u : HTerm K} (ht : t ∈ vis terms (n + 1)) (hu : u ∈ vis terms (n + 1)) (h0 : vl (t, n + 1) ≠ [])
    (h : Agree (elemAt qn s (n + 1) u) (elemAt qn s (n + 1) t)) :
    u ∈ block qn terms n (lq qn (t, n + 1)) ∧ vr (u, n) = vr (t, n) := by
  obtain ⟨ht, t1, t2⟩ := mem_vis.1 ht
  obtain ⟨hu, u1, u2⟩ := mem_vis.1 hu
  have hst := hok.sorted t ht
  have hsu := hok.sorted u hu
  obtain ⟨h1, h2, h3, h4, h5⟩ := h
  simp only [elemAt, elemOf, h0, if_false] at h1 h2 h3 h4 h5
  have h0' : vl (u, n + 1) ≠ [] := by
    intro h
    simp [h] at h1
  simp only [h0', if_false, Option.some.injEq, Nat.add_sub_cancel, vr_succ hst, vr_succ hsu] at h1
  have mu : u ∈ block qn terms n (lq qn (u, n + 1)) := by
    have := (vl_ne hsu (hok.ne u hu) _).1 h0'
    exact mem_block.2 ⟨hu, ⟨by omega, by omega⟩, rfl⟩
  refine ⟨h3 ▸ mu, ?_⟩
  rw [← h3] at h1
  exact (List.idxOf_inj (right_in hok hi mu)).1 h1

/-- Terms of one block with the same right part have the same element. -/
theorem elemAt_eq (hok : TermsOk qn terms N) {n : Nat} {t u : HTerm K} (ht : t ∈ terms) (h0 : vl (t, n + 1) ≠ [])
    (hu : u ∈ block qn terms n (lq qn (t, n + 1))) (hr : vr (u, n) = vr (t, n)) :
    elemAt qn s (n + 1) u = elemAt qn s (n + 1) t := by
  obtain ⟨hu, ⟨u1, u2⟩, u3⟩ := mem_block.1 hu
  have hst := hok.sorted t ht
  have hsu := hok.sorted u hu
  have h0' : vl (u, n + 1) ≠ [] := (vl_ne hsu (hok.ne u hu) _).2 (by omega)
  have split : vm (u, n + 1) = vm (t, n + 1) ∧ vr (u, n + 1) = vr (t, n + 1) := by
    have key : ∀ w : HTerm K, Sorted w.ops → vm (w, n + 1) = (vr (w, n)).filter (fun v => v.i = ((n + 1 : Nat) : Int)) ∧
        vr (w, n + 1) = (vr (w, n)).filter (fun v => ((n + 1 : Nat) : Int) < v.i) := by
      intro w hw
      rw [vm_eq hw, vr_eq hw, vr_eq hw, List.filter_filter, List.filter_filter]
      constructor
      · refine List.filter_congr fun v _ => ?_
        rw [← Bool.decide_and]
        congr 1
        simp only [eq_iff_iff]
        omega
      · refine List.filter_congr fun v _ => ?_
        rw [← Bool.decide_and]
        congr 1
        simp only [eq_iff_iff]
        omega
    rw [(key u hsu).1, (key u hsu).2, (key t hst).1, (key t hst).2, hr]
    exact ⟨rfl, rfl⟩
  have hops : opsOf (u, n + 1) = opsOf (t, n + 1) := by
    refine locOps_congr _ hsu hst ?_ ?_
    · have := fermi_split hok hu n
      rw [hr, ← fermi_split hok ht n, vl_eq hsu, vl_eq hst] at this
      exact this
    · have := split.1
      rw [vm_eq hsu, vm_eq hst] at this
      exact this
  have hrq : rq qn (u, n + 1) = rq qn (t, n + 1) := by
    show lq qn (u, n + 1) + _ = lq qn (t, n + 1) + _
    rw [u3, split.1]
  simp only [elemAt, elemOf, h0, h0', if_false, split.1, split.2, hrq, u3, hops]

theorem mem_temp (hnear : ∀ x, near x x = true) (hok : TermsOk qn terms N)
    (hi : Inv qn near opsOf (terms.flatMap visitsOf) s) {n : Nat} {e : Elem Q K} :
    e ∈ s.temp (n + 1) ↔ ∃ t ∈ vis terms (n + 1), e = elemAt qn s (n + 1) t := by
  constructor
  · intro he
    obtain ⟨⟨t, m⟩, hv, rfl, rfl⟩ := hi.temp_mem _ e he
    rw [mem_visits hok] at hv
    exact ⟨t, mem_vis.2 hv, rfl⟩
  · rintro ⟨t, ht, rfl⟩
    have hv : (t, n + 1) ∈ terms.flatMap visitsOf := (mem_visits hok _).2 (mem_vis.1 ht)
    obtain ⟨e, he, hsame⟩ := hi.temp_all _ hv
    obtain ⟨⟨u, m⟩, hu, hm, rfl⟩ := hi.temp_mem _ e he
    simp only at hm
    subst hm
    have hu' : u ∈ vis terms (n + 1) := mem_vis.2 ((mem_visits hok _).1 hu)
    simp only [Elem.same, decide_eq_true_eq] at hsame
    obtain ⟨a1, a2, a3, a4, a5, a6⟩ := hsame
    have hag : Agree (elemAt qn s (n + 1) t) (elemAt qn s (n + 1) u) := ⟨a1, a2, a3, a4, a6⟩
    have : elemAt qn s (n + 1) t = elemAt qn s (n + 1) u := by
      by_cases h0 : vl (t, n + 1) = []
      · rw [agree_start hok hi ht hu' h0 hag]
      · obtain ⟨q1, q2⟩ := agree_cross hok hi ht hu' h0 ⟨a1.symm, a2.symm, a3.symm, a4.symm, a6.symm⟩
        rw [elemAt_eq hok (mem_vis.1 ht).1 h0 q1 q2]
    rw [this]
    exact he

section Vector

variable [StarRing K] {el : List SiteTerm → Nat → K} {tiny : K → Bool} {svd : Svd Q K}

/-- The factor of the contribution which depends on the row. -/
def rowPart (svd : Svd Q K) (n : Nat) (e : Elem Q K) (r : Q × Nat) : K :=
  if r.1 = e.rowqn then
    match e.row with
    | none => if r.2 = 1 then e.coef else 0
    | some j => if shift e.rowqn ≤ r.2 ∧ r.2 < shift e.rowqn + (svd n e.rowqn).1 then
        e.coef * Star.star ((svd n e.rowqn).2 j (r.2 - shift e.rowqn)) else 0
  else 0

/-- The factor of the contribution which depends on the column. -/
def colPart (svd : Svd Q K) (n : Nat) (e : Elem Q K) (c : Q × Nat) : K :=
  if c.1 = e.colqn then
    match e.col with
    | none => if c.2 = 0 then 1 else 0
    | some k => if shift e.colqn ≤ c.2 ∧ c.2 < shift e.colqn + (svd n e.colqn).1 then
        (svd n e.colqn).2 k (c.2 - shift e.colqn) else 0
  else 0

theorem contribution_eq (svd : Svd Q K) (n : Nat) (e : Elem Q K) (r c : Q × Nat) :
    contribution svd (n + 1) e r c = rowPart svd n e r * colPart svd (n + 1) e c := by
  unfold contribution rowPart colPart
  rw [Nat.add_sub_cancel]
  by_cases h1 : r.1 = e.rowqn <;> by_cases h2 : c.1 = e.colqn <;> simp only [h1, h2, and_self, and_false, false_and, if_true,
    if_false, mul_zero, zero_mul]
  cases e.row with
  | none =>
    cases e.col with
    | none => by_cases h3 : r.2 = 1 <;> by_cases h4 : c.2 = 0 <;> simp [h3, h4]
    | some k =>
      by_cases h3 : r.2 = 1 <;>
        by_cases h4 : shift e.colqn ≤ c.2 ∧ c.2 < shift e.colqn + (svd (n + 1) e.colqn).1 <;> simp [h3, h4]
  | some j =>
    cases e.col with
    | none =>
      by_cases h3 : shift e.rowqn ≤ r.2 ∧ r.2 < shift e.rowqn + (svd n e.rowqn).1 <;> by_cases h4 : c.2 = 0 <;> simp [h3, h4]
    | some k =>
      by_cases h3 : shift e.rowqn ≤ r.2 ∧ r.2 < shift e.rowqn + (svd n e.rowqn).1 <;>
        by_cases h4 : shift e.colqn ≤ c.2 ∧ c.2 < shift e.colqn + (svd (n + 1) e.colqn).1 <;> simp [h3, h4]

omit [StarRing K] in
theorem states_sum (f : Q × Nat → K) (n : Nat) : ((states svd s n).map f).sum =
    f (0, 0) + f (0, 1) + ((s.keys n).map fun q => ∑ i ∈ range (svd n q).1, f (q, i + shift q)).sum := by
  rw [states, List.map_append, List.sum_append]
  congr 1
  · simp
  · induction s.keys n with
    | nil => rfl
    | cons q l ih =>
      rw [List.flatMap_cons, List.map_append, List.sum_append, ih, List.map_cons, List.sum_cons, List.map_map]
      congr 1

omit [CommRing K] [AddCommMonoid Q] [DecidableEq Q] [StarRing K] in
theorem sum_key {K : Type*} [AddCommMonoid K] {l : List Q} (hl : l.Nodup) {q : Q} (hq : q ∈ l) (f : Q → K) (h : ∀ q' ∈ l, q' ≠ q → f q' = 0) :
    (l.map f).sum = f q := by
  induction l with
  | nil => simp at hq
  | cons a l ih =>
    rw [List.nodup_cons] at hl
    rw [List.map_cons, List.sum_cons]
    rcases List.mem_cons.1 hq with rfl | hq
    · rw [List.sum_eq_zero, add_zero]
      intro x hx
      obtain ⟨b, hb, rfl⟩ := List.mem_map.1 hx
      exact h b (by simp [hb]) fun e => hl.1 (e ▸ hb)
    · rw [ih hl.2 hq fun b hb => h b (by simp [hb]), h a (by simp) fun e => hl.1 (e ▸ hq), zero_add]

open scoped Classical in
/-- What the vector after `n` sites is. -/
structure VecOk (qn : SiteTerm → Q) (terms : List (HTerm K)) (s : Parts Q K) (svd : Svd Q K)
    (el : List SiteTerm → Nat → K) (n : Nat) (v : Q × Nat → K) : Prop where
  start : v (0, 1) = prodTo (fun m => el [⟨nId, (m : Int)⟩] m) n
  done : v (0, 0) = ∑ t ∈ terms.toFinset with t.last.i ≤ (n : Int), t.coef * upTo el n t.ops
  cross : ∀ q, ∀ i < (svd n q).1, v (q, i + shift q) =
    ∑ t ∈ block qn terms n q, t.coef * upTo el n t.ops * (svd n q).2 (colOf s n q t) i

omit [DecidableEq Q] [StarRing K] in
theorem upTo_vl (hok : TermsOk qn terms N) {t : HTerm K} (ht : t ∈ terms) (n : Nat) :
    upTo el n t.ops = upTo el n (vl (t, n + 1)) := by
  have hs := hok.sorted t ht
  have : Sorted (vl (t, n + 1)) := by
    rw [vl_eq hs]
    exact List.Pairwise.filter _ hs
  refine upTo_left el n hs this ?_
  rw [vl_eq hs, List.filter_filter]
  simp

omit [DecidableEq Q] [StarRing K] in
/-- Left of a term there are identities. -/
theorem upTo_before (hok : TermsOk qn terms N) {t : HTerm K} (ht : t ∈ terms) {n : Nat} (h : (n : Int) < t.first.i) :
    upTo el n t.ops = prodTo (fun m => el [⟨nId, (m : Int)⟩] m) n := by
  refine prodTo_congr fun m _ hm => ?_
  rw [locOps_left _ (hok.sorted t ht)]
  intro u hu
  have := first_le (hok.sorted t ht) hu
  omega

open scoped Classical in
/-- The rows of an element. -/
theorem row_total (hok : TermsOk qn terms N) (hi : Inv qn near opsOf (terms.flatMap visitsOf) s)
    {n : Nat} (hsvd : ∀ q, Keeps (s.mat n q) (svd n q)) {v : Q × Nat → K} (hv : VecOk qn terms s svd el n v) {t : HTerm K}
    (ht : t ∈ vis terms (n + 1)) :
    ((states svd s n).map fun r => v r * rowPart svd n (elemAt qn s (n + 1) t) r).sum * el (opsOf (t, n + 1)) (n + 1) =
      ∑ u ∈ (vis terms (n + 1)).filter (fun u => elemAt qn s (n + 1) u = elemAt qn s (n + 1) t),
        u.coef * upTo el (n + 1) u.ops := by
  have htv := ht
  obtain ⟨ht, t1, t2⟩ := mem_vis.1 ht
  have hst := hok.sorted t ht
  rw [states_sum]
  by_cases h0 : vl (t, n + 1) = []
  · have e1 : (elemAt qn s (n + 1) t).rowqn = 0 := by simp [elemAt, elemOf, lq, h0, calcQN]
    have e2 : (elemAt qn s (n + 1) t).row = none := by simp [elemAt, elemOf, h0]
    have e3 : (elemAt qn s (n + 1) t).coef = t.coef := by simp [elemAt, elemOf, h0]
    have hz : ((s.keys n).map fun q => ∑ i ∈ range (svd n q).1,
        v (q, i + shift q) * rowPart svd n (elemAt qn s (n + 1) t) (q, i + shift q)).sum = 0 := by
      refine List.sum_eq_zero fun x hx => ?_
      obtain ⟨q, _, rfl⟩ := List.mem_map.1 hx
      refine Finset.sum_eq_zero fun i _ => ?_
      simp only [rowPart, e1, e2]
      by_cases hq : q = 0
      · subst hq
        simp [shift]
      · simp [hq]
    have hf : (vis terms (n + 1)).filter (fun u => elemAt qn s (n + 1) u = elemAt qn s (n + 1) t) = {t} := by
      ext u
      rw [Finset.mem_filter, Finset.mem_singleton]
      constructor
      · rintro ⟨hu, he⟩
        refine (agree_start hok hi htv hu h0 ?_).symm
        rw [he]
        exact ⟨rfl, rfl, rfl, rfl, rfl⟩
      · rintro rfl
        exact ⟨htv, rfl⟩
    have hfirst : (n : Int) < t.first.i := by
      have := mt (vl_ne hst (hok.ne t ht) (n + 1)).2 (not_not.2 h0)
      omega
    rw [hz, hf, Finset.sum_singleton, upTo_succ, upTo_before hok ht hfirst, ← hv.start]
    simp only [rowPart, e1, e2, e3, opsOf]
    simp
    ring
  · have e1 : (elemAt qn s (n + 1) t).rowqn = lq qn (t, n + 1) := rfl
    have e2 : (elemAt qn s (n + 1) t).row = some (colOf s n (lq qn (t, n + 1)) t) := by
      simp [elemAt, elemOf, h0, vr_succ hst, colOf]
    have e3 : (elemAt qn s (n + 1) t).coef = 1 := by simp [elemAt, elemOf, h0]
    have hfirst := (vl_ne hst (hok.ne t ht) _).1 h0
    have mt : t ∈ block qn terms n (lq qn (t, n + 1)) := mem_block.2 ⟨ht, ⟨by omega, by omega⟩, rfl⟩
    have hq : lq qn (t, n + 1) ∈ s.keys n := by
      rw [hi.keys_mem]
      exact ⟨(t, n + 1), (mem_visits hok _).2 ⟨ht, t1, t2⟩, by simp [addsKey, h0]⟩
    have hset : (vis terms (n + 1)).filter (fun u => elemAt qn s (n + 1) u = elemAt qn s (n + 1) t) =
        (block qn terms n (lq qn (t, n + 1))).filter (fun u => vr (u, n) = vr (t, n)) := by
      ext u
      rw [Finset.mem_filter, Finset.mem_filter]
      constructor
      · rintro ⟨hu, he⟩
        refine agree_cross hok hi htv hu h0 ?_
        rw [he]
        exact ⟨rfl, rfl, rfl, rfl, rfl⟩
      · rintro ⟨hu, hr⟩
        obtain ⟨hu', ⟨u1, u2⟩, _⟩ := mem_block.1 hu
        exact ⟨mem_vis.2 ⟨hu', by omega, by omega⟩, elemAt_eq hok ht h0 hu hr⟩
    have hops : ∀ u ∈ (block qn terms n (lq qn (t, n + 1))).filter (fun u => vr (u, n) = vr (t, n)),
        u ∈ terms ∧ opsOf (u, n + 1) = opsOf (t, n + 1) := by
      intro u hu
      rw [Finset.mem_filter] at hu
      exact ⟨(mem_block.1 hu.1).1, congrArg Elem.ops (elemAt_eq (s := s) hok ht h0 hu.1 hu.2)⟩
    rw [hset]
    generalize lq qn (t, n + 1) = q at e1 e2 mt hq hops
    have z0 : ∀ k < 2, rowPart svd n (elemAt qn s (n + 1) t) (0, k) = 0 := by
      intro k hk
      simp only [rowPart, e1, e2]
      by_cases h : q = 0
      · subst h
        simp [shift]
        omega
      · simp [Ne.symm h]
    rw [z0 0 (by omega), z0 1 (by omega), sum_key (hi.keys_nodup n) hq]
    · have hr : ∀ i ∈ range (svd n q).1, v (q, i + shift q) * rowPart svd n (elemAt qn s (n + 1) t) (q, i + shift q) =
          ∑ u ∈ block qn terms n q, u.coef * upTo el n (vl (u, n + 1)) *
            ((svd n q).2 (colOf s n q u) i * Star.star ((svd n q).2 (colOf s n q t) i)) := by
        intro i hi'
        rw [Finset.mem_range] at hi'
        rw [hv.cross q i hi', Finset.sum_mul]
        refine Finset.sum_congr rfl fun u hu => ?_
        rw [upTo_vl hok (mem_block.1 hu).1]
        simp only [rowPart, e1, e2, e3, if_true]
        rw [if_pos (by omega), Nat.add_sub_cancel]
        ring
      rw [Finset.sum_congr rfl hr, Finset.sum_comm]
      simp only [← Finset.mul_sum]
      rw [project hok hi (hsvd q) (fun l => upTo el n l) mt, mul_zero, mul_zero, zero_add, zero_add, Finset.sum_mul]
      refine Finset.sum_congr rfl fun u hu => ?_
      obtain ⟨hu, ho⟩ := hops u hu
      rw [upTo_succ, ← ho, upTo_vl hok hu n, opsOf]
      ring
    · intro q' _ hne
      refine Finset.sum_eq_zero fun i _ => ?_
      simp [rowPart, e1, hne]

open scoped Classical in
/-- The vector after one more site. -/
theorem vec_step (hnear : ∀ x, near x x = true) (h1 : tiny 1 = false) (hok : TermsOk qn terms N)
    (ht : ∀ t ∈ terms, tiny t.coef = false) (hi : Inv qn near opsOf (terms.flatMap visitsOf) s)
    {n : Nat} (hsvd : ∀ q, Keeps (s.mat n q) (svd n q)) (hv : VecOk qn terms s svd el n (svdVec el tiny svd s n))
    (c : Q × Nat) : svdVec el tiny svd s (n + 1) c =
      (if c = (0, 0) ∨ c = (0, 1) then svdVec el tiny svd s n c * el [⟨nId, ((n + 1 : Nat) : Int)⟩] (n + 1) else 0) +
      ∑ t ∈ vis terms (n + 1), t.coef * upTo el (n + 1) t.ops * colPart svd (n + 1) (elemAt qn s (n + 1) t) c := by
  have hc : ∀ e ∈ s.temp (n + 1), tiny e.coef = false := by
    intro e he
    obtain ⟨t, ht', rfl⟩ := (mem_temp hnear hok hi).1 he
    simp only [elemAt, elemOf]
    split
    · exact ht t (mem_vis.1 ht').1
    · exact h1
  have hfil : (s.temp (n + 1)).filter (fun e => !tiny e.coef) = s.temp (n + 1) := by
    rw [List.filter_eq_self]
    intro e he
    simp [hc e he]
  rw [svdVec]
  simp only [svdEntry, hfil, contribution_eq, mul_add]
  rw [List.sum_map_add]
  congr 1
  · rw [states_sum]
    have hz : ((s.keys n).map fun q => ∑ i ∈ range (svd n q).1, svdVec el tiny svd s n (q, i + shift q) *
        (if (q, i + shift q) = c ∧ ((q, i + shift q) = (0, 0) ∨ (q, i + shift q) = (0, 1)) then
          el [⟨nId, ((n + 1 : Nat) : Int)⟩] (n + 1) else 0)).sum = 0 := by
      refine List.sum_eq_zero fun x hx => ?_
      obtain ⟨q, _, rfl⟩ := List.mem_map.1 hx
      refine Finset.sum_eq_zero fun i _ => ?_
      rw [if_neg, mul_zero]
      rintro ⟨_, h | h⟩ <;> simp only [Prod.mk.injEq] at h <;> rw [shift, if_pos h.1] at h <;> omega
    rw [hz]
    by_cases c0 : c = (0, 0)
    · subst c0
      simp
    · by_cases c1 : c = (0, 1)
      · subst c1
        simp
      · simp [c0, c1, Ne.symm c0, Ne.symm c1]
  · have swap : ((states svd s n).map fun r => svdVec el tiny svd s n r * ((s.temp (n + 1)).map fun e =>
          rowPart svd n e r * colPart svd (n + 1) e c * el e.ops (n + 1)).sum).sum =
        ((s.temp (n + 1)).map fun e => ((states svd s n).map fun r => svdVec el tiny svd s n r * rowPart svd n e r).sum *
          el e.ops (n + 1) * colPart svd (n + 1) e c).sum := by
      generalize s.temp (n + 1) = l
      induction l with
      | nil => simp
      | cons e l ih =>
        simp only [List.map_cons, List.sum_cons, mul_add, List.sum_map_add]
        rw [ih]
        congr 1
        rw [mul_assoc, ← List.sum_map_mul_right]
        congr 1
        refine List.map_congr_left fun r _ => ?_
        ring
    rw [swap, ← List.sum_toFinset _ (hi.temp_nodup _), ← Finset.sum_fiberwise_of_maps_to (g := fun t => elemAt qn s (n + 1) t)
      (t := (s.temp (n + 1)).toFinset) fun t ht => by
        rw [List.mem_toFinset]
        exact (mem_temp hnear hok hi).2 ⟨t, ht, rfl⟩]
    refine Finset.sum_congr rfl fun e he => ?_
    rw [List.mem_toFinset] at he
    obtain ⟨t, ht', rfl⟩ := (mem_temp hnear hok hi).1 he
    have := row_total hok hi hsvd hv ht'
    rw [show (elemAt qn s (n + 1) t).ops = opsOf (t, n + 1) from rfl, this, Finset.sum_mul]
    refine Finset.sum_congr rfl fun u hu => ?_
    rw [(Finset.mem_filter.1 hu).2]

omit [DecidableEq Q] [StarRing K] in
/-- Right of a term there are identities. -/
theorem upTo_after (hok : TermsOk qn terms N) {t : HTerm K} (ht : t ∈ terms) {n : Nat} (h : t.last.i ≤ (n : Int)) :
    upTo el (n + 1) t.ops = upTo el n t.ops * el [⟨nId, ((n + 1 : Nat) : Int)⟩] (n + 1) := by
  rw [upTo_succ, locOps_right _ (hok.sorted t ht) (hok.even t ht)]
  intro u hu
  have := le_last (hok.sorted t ht) hu
  omega

omit [StarRing K] in
theorem state_ne (q : Q) (i : Nat) : ¬((q, i + shift q) = (0, 0) ∨ (q, i + shift q) = (0, 1)) := by
  rintro (h | h) <;> simp only [Prod.mk.injEq] at h <;> rw [shift, if_pos h.1] at h <;> omega

theorem vec_ok (hnear : ∀ x, near x x = true) (h1 : tiny 1 = false) (hok : TermsOk qn terms N)
    (ht : ∀ t ∈ terms, tiny t.coef = false) (hi : Inv qn near opsOf (terms.flatMap visitsOf) s)
    (hsvd : ∀ n q, Keeps (s.mat n q) (svd n q)) (n : Nat) : VecOk qn terms s svd el n (svdVec el tiny svd s n) := by
  classical
  induction n with
  | zero =>
    have hlast : ∀ t ∈ terms, 1 ≤ t.first.i ∧ 1 ≤ t.last.i := fun t ht =>
      ⟨(hok.range t ht _ (first_mem (hok.ne t ht))).1, (hok.range t ht _ (last_mem (hok.ne t ht))).1⟩
    refine ⟨by simp [svdVec, prodTo], ?_, fun q i _ => ?_⟩
    · rw [Finset.sum_eq_zero]
      · simp [svdVec]
      · intro t ht
        rw [Finset.mem_filter, List.mem_toFinset] at ht
        have := hlast t ht.1
        simp at ht
        omega
    · rw [Finset.sum_eq_zero]
      · rw [svdVec, if_neg fun h => state_ne q i (.inr h)]
      · intro t ht
        obtain ⟨ht, ⟨h, _⟩, _⟩ := mem_block.1 ht
        have := hlast t ht
        simp at h
        omega
  | succ n ih =>
    have step := vec_step hnear h1 hok ht hi (hsvd n) ih
    refine ⟨?_, ?_, fun q i hlt => ?_⟩
    · rw [step, if_pos (.inr rfl), ih.start, prodTo_succ, Finset.sum_eq_zero, add_zero]
      intro t _
      rw [colPart]
      split
      · rename_i h
        split
        · simp
        · rw [if_neg, mul_zero]
          rintro ⟨h', _⟩
          rw [← h, shift, if_pos rfl] at h'
          simp at h'
      · simp
    · rw [step, if_pos (.inl rfl), ih.done, Finset.sum_mul]
      have a1 : ∑ t ∈ terms.toFinset with t.last.i ≤ (n : Int), t.coef * upTo el n t.ops * el [⟨nId, ((n + 1 : Nat) : Int)⟩] (n + 1) =
          ∑ t ∈ terms.toFinset with t.last.i ≤ (n : Int), t.coef * upTo el (n + 1) t.ops := by
        refine Finset.sum_congr rfl fun t ht => ?_
        rw [Finset.mem_filter, List.mem_toFinset] at ht
        rw [upTo_after hok ht.1 ht.2, mul_assoc]
      have a2 : ∑ t ∈ vis terms (n + 1), t.coef * upTo el (n + 1) t.ops *
            colPart svd (n + 1) (elemAt qn s (n + 1) t) (0, 0) =
          ∑ t ∈ terms.toFinset with t.last.i = ((n + 1 : Nat) : Int), t.coef * upTo el (n + 1) t.ops := by
        have hsub : ((terms.toFinset).filter fun t : HTerm K => t.last.i = ((n + 1 : Nat) : Int)) =
            (vis terms (n + 1)).filter fun t => vr (t, n + 1) = [] := by
          ext t
          rw [Finset.mem_filter, Finset.mem_filter, mem_vis, List.mem_toFinset]
          constructor
          · rintro ⟨h, h'⟩
            refine ⟨⟨h, ?_, by omega⟩, ?_⟩
            · have := first_le (hok.sorted t h) (last_mem (hok.ne t h))
              omega
            · have := mt (vr_ne (hok.sorted t h) (hok.ne t h) (n + 1)).1 (by omega)
              exact not_not.1 this
          · rintro ⟨⟨h, h2, h3⟩, h4⟩
            have := mt (vr_ne (hok.sorted t h) (hok.ne t h) (n + 1)).2 (not_not.2 h4)
            exact ⟨h, by omega⟩
        rw [hsub, Finset.sum_filter]
        refine Finset.sum_congr rfl fun t htv => ?_
        have hst := hok.sorted t (mem_vis.1 htv).1
        split
        · rename_i h
          have e1 : (elemAt qn s (n + 1) t).col = none := by simp [elemAt, elemOf, h]
          have e2 : (elemAt qn s (n + 1) t).colqn = 0 := by
            show rq qn (t, n + 1) = 0
            have hvl := vl_vr hst (n + 1)
            rw [h, List.append_nil] at hvl
            rw [rq_eq qn hst, lq, hvl]
            exact hok.flux t (mem_vis.1 htv).1
          simp [colPart, e1, e2]
        · rename_i h
          have e1 : ∃ k, (elemAt qn s (n + 1) t).col = some k := by simp [elemAt, elemOf, h]
          obtain ⟨k, e1⟩ := e1
          rw [colPart]
          split
          · rename_i h'
            simp only at h'
            simp [e1, ← h', shift]
          · simp
      rw [a1, a2, ← Finset.sum_union]
      · refine Finset.sum_congr ?_ fun _ _ => rfl
        ext t
        simp only [Finset.mem_union, Finset.mem_filter, List.mem_toFinset]
        constructor
        · rintro (h | h)
          · exact ⟨h.1, by omega⟩
          · exact ⟨h.1, by omega⟩
        · rintro ⟨h, h'⟩
          by_cases h2 : t.last.i ≤ (n : Int)
          · exact .inl ⟨h, h2⟩
          · exact .inr ⟨h, by omega⟩
      · rw [Finset.disjoint_left]
        intro t h h'
        simp only [Finset.mem_filter] at h h'
        omega
    · rw [step, if_neg (state_ne q i), zero_add]
      have hsub : block qn terms (n + 1) q = (vis terms (n + 1)).filter fun t => vr (t, n + 1) ≠ [] ∧ rq qn (t, n + 1) = q := by
        ext t
        rw [Finset.mem_filter, mem_block, mem_vis]
        constructor
        · rintro ⟨h, ⟨h2, h3⟩, h4⟩
          exact ⟨⟨h, h2, by omega⟩, (vr_ne (hok.sorted t h) (hok.ne t h) _).2 h3, by rw [rq_eq qn (hok.sorted t h), h4]⟩
        · rintro ⟨⟨h, h2, _⟩, h4, h5⟩
          exact ⟨h, ⟨h2, (vr_ne (hok.sorted t h) (hok.ne t h) _).1 h4⟩, by rw [← rq_eq qn (hok.sorted t h), h5]⟩
      rw [hsub, Finset.sum_filter]
      refine Finset.sum_congr rfl fun t htv => ?_
      have e2 : (elemAt qn s (n + 1) t).colqn = rq qn (t, n + 1) := rfl
      by_cases hr : vr (t, n + 1) = []
      · have e1 : (elemAt qn s (n + 1) t).col = none := by simp [elemAt, elemOf, hr]
        rw [if_neg (by simp [hr])]
        simp only [colPart, e1, e2]
        split
        · rename_i h
          rw [if_neg, mul_zero]
          intro h'
          have hst := hok.sorted t (mem_vis.1 htv).1
          have hvl := vl_vr hst (n + 1)
          rw [hr, List.append_nil] at hvl
          have : rq qn (t, n + 1) = 0 := by
            rw [rq_eq qn hst, lq, hvl]
            exact hok.flux t (mem_vis.1 htv).1
          rw [shift, if_pos (h.trans this)] at h'
          omega
        · simp
      · by_cases hq : rq qn (t, n + 1) = q
        · rw [if_pos ⟨hr, hq⟩]
          have e1 : (elemAt qn s (n + 1) t).col = some (colOf s (n + 1) q t) := by
            simp [elemAt, elemOf, hr, colOf, hq]
          simp only [colPart, e1, e2, hq, if_true]
          rw [if_pos (by omega), Nat.add_sub_cancel]
        · rw [if_neg (by tauto)]
          simp [colPart, e2, Ne.symm hq]

/-- C65: the element of the result of the default conversion is the sum over the terms of the products of the elements of
their operators, if the factorizations of all blocks lose nothing.

Missing: see `C65_operator_partial`, which says the same without reference to `locOps`. -/
theorem C65_svd_partial (hnear : ∀ x, near x x = true) (h1 : tiny 1 = false) (hok : TermsOk qn terms N)
    (ht : ∀ t ∈ terms, tiny t.coef = false)
    (hsvd : ∀ s, partition qn near terms = .ok s → ∀ n q, Keeps (s.mat n q) (svd n q)) :
    svdElement qn near el tiny svd terms N =
      .ok (terms.map fun t => t.coef * prodTo (fun m => el (locOps (m : Int) t.ops) m) N).sum := by
  classical
  obtain ⟨s, hs, hi⟩ := partition_inv qn hnear (ops := opsOf) (terms.flatMap visitsOf) (fun v hv => by
    obtain ⟨h, h2, _⟩ := (mem_visits hok v).1 hv
    have := (hok.range _ h _ (first_mem (hok.ne _ h))).1
    exact ⟨by omega, onsite_eq _ (hok.sorted _ h)⟩)
  have hp : partition qn near terms = .ok s := hs
  have hv := vec_ok (el := el) (svd := svd) hnear h1 hok ht hi (hsvd s hp) N
  rw [svdElement, if_neg, if_neg, hp, Res.bind_ok, hv.done, Finset.filter_true_of_mem, List.sum_toFinset _ hok.nodup]
  · rfl
  · intro t ht
    rw [List.mem_toFinset] at ht
    exact (hok.range t ht _ (last_mem (hok.ne t ht))).2
  · rw [List.any_eq_true]
    rintro ⟨t, ht, h⟩
    rw [List.any_eq_true] at h
    obtain ⟨u, hu, h⟩ := h
    have := hok.range t ht u hu
    simp at h
    omega
  · rw [List.any_eq_true]
    rintro ⟨t, ht, h⟩
    simp at h
    exact hok.ne t ht h

end Vector

end Verif.AutoMPO
