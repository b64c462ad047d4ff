import Mathlib.Algebra.BigOperators.Ring.Finset
import Mathlib.Algebra.BigOperators.Group.Finset.Basic
import Verif.AutoMPO.SvdTerms

/-!
# The default conversion gives the sum of the terms (C65)
-/

namespace Verif.AutoMPO

open Finset

variable {K : Type*} [CommRing K] {Q : Type*} [AddCommMonoid Q] [DecidableEq Q]

/-- What is assumed of the terms: at least one operator, all on the chain and in order; different products; an even number
of fermionic operators; no two names which the rewriting makes the same, as it does for `C` and `A`; no flux. -/
structure TermsOk (qn : SiteTerm → Q) (terms : List (HTerm K)) (N : Nat) : Prop where
  ne : ∀ t ∈ terms, t.ops ≠ []
  sorted : ∀ t ∈ terms, t.ops.Pairwise fun a b => a.i ≤ b.i
  range : ∀ t ∈ terms, ∀ u ∈ t.ops, 1 ≤ u.i ∧ u.i ≤ N
  distinct : terms.Pairwise fun a b => a.ops ≠ b.ops
  even : ∀ t ∈ terms, fermiProd t.ops = false
  names : ∀ t ∈ terms, ∀ u ∈ t.ops, ∀ t' ∈ terms, ∀ u' ∈ t'.ops, fermionicTerm u.op = fermionicTerm u'.op → u.op = u'.op
  flux : ∀ t ∈ terms, (t.ops.map qn).sum = 0

variable {qn : SiteTerm → Q} {terms : List (HTerm K)} {N : Nat}

omit [CommRing K] [DecidableEq Q] in
theorem TermsOk.inj (h : TermsOk qn terms N) {t u : HTerm K} (ht : t ∈ terms) (hu : u ∈ terms) (e : t.ops = u.ops) :
    t = u := by
  have : ∀ l : List (HTerm K), l.Pairwise (fun a b => a.ops ≠ b.ops) → ∀ t ∈ l, ∀ u ∈ l, t.ops = u.ops → t = u := by
    intro l
    induction l with
    | nil => simp
    | cons a l ih =>
      intro hp t ht u hu e
      rw [List.pairwise_cons] at hp
      rcases List.mem_cons.1 ht with h1 | h1 <;> rcases List.mem_cons.1 hu with h2 | h2
      · rw [h1, h2]
      · rw [h1] at e
        exact absurd e (hp.1 u h2)
      · rw [h2] at e
        exact absurd e.symm (hp.1 t h1)
      · exact ih hp.2 t h1 u h2 e
  exact this terms h.distinct t ht u hu e

omit [CommRing K] [DecidableEq Q] in
theorem TermsOk.nodup (h : TermsOk qn terms N) : terms.Nodup :=
  h.distinct.imp fun {a b} h (e : a = b) => h (e ▸ rfl)

omit [CommRing K] [DecidableEq Q] in
theorem mem_visits (h : TermsOk qn terms N) (v : HTerm K × Nat) :
    v ∈ terms.flatMap visitsOf ↔ v.1 ∈ terms ∧ v.1.first.i ≤ (v.2 : Int) ∧ (v.2 : Int) ≤ v.1.last.i := by
  obtain ⟨t, n⟩ := v
  simp only [List.mem_flatMap, visitsOf, List.mem_map, List.mem_range'_1, Prod.mk.injEq]
  constructor
  · rintro ⟨u, hu, m, ⟨h1, h2⟩, rfl, rfl⟩
    have a1 := h.range u hu _ (first_mem (h.ne u hu))
    have a2 := h.range u hu _ (last_mem (h.ne u hu))
    exact ⟨hu, by omega, by omega⟩
  · rintro ⟨ht, h1, h2⟩
    have a1 := h.range t ht _ (first_mem (h.ne t ht))
    exact ⟨t, ht, n, ⟨by omega, by omega⟩, rfl, rfl⟩

/-- The operators of a visit. -/
def opsOf (v : HTerm K × Nat) : List SiteTerm := locOps (v.2 : Int) v.1.ops

/-- The terms which cross the link `n`. -/
def Crosses (n : Nat) (t : HTerm K) : Prop := t.first.i ≤ (n : Int) ∧ (n : Int) < t.last.i

instance (n : Nat) : DecidablePred (Crosses (K := K) n) := fun t =>
  inferInstanceAs (Decidable (t.first.i ≤ (n : Int) ∧ (n : Int) < t.last.i))

/-- The product of the elements of a term up to site `n`. -/
def upTo (el : List SiteTerm → Nat → K) (n : Nat) (l : List SiteTerm) : K := prodTo (fun m => el (locOps (m : Int) l) m) n

theorem upTo_succ (el : List SiteTerm → Nat → K) (n : Nat) (l : List SiteTerm) :
    upTo el (n + 1) l = upTo el n l * el (locOps ((n + 1 : Nat) : Int) l) (n + 1) := prodTo_succ _ _

/-- Up to site `n`, only the operators up to site `n` count. -/
theorem upTo_left (el : List SiteTerm → Nat → K) (n : Nat) {l l' : List SiteTerm} (hs : Sorted l) (hs' : Sorted l')
    (h : l.filter (fun u => u.i < ((n + 1 : Nat) : Int)) = l'.filter (fun u => u.i < ((n + 1 : Nat) : Int))) :
    upTo el n l = upTo el n l' := by
  refine prodTo_congr fun m _ hm => ?_
  have key : ∀ p : Int → Bool, (∀ i, p i = true → i < ((n + 1 : Nat) : Int)) →
      l.filter (fun u => p u.i) = l'.filter (fun u => p u.i) := by
    intro p hp
    have : ∀ k : List SiteTerm, (k.filter (fun u => u.i < ((n + 1 : Nat) : Int))).filter (fun u => p u.i) =
        k.filter (fun u => p u.i) := by
      intro k
      rw [List.filter_filter]
      refine List.filter_congr fun u _ => ?_
      cases h : p u.i
      · simp
      · simpa using hp _ h
    rw [← this l, ← this l', h]
  rw [locOps_congr (m : Int) hs hs']
  · rw [key (fun i => i < (m : Int)) fun i hi => by simp at hi; omega]
  · exact key (fun i => i = (m : Int)) fun i hi => by simp at hi; omega

section Matrix

theorem toMatrix_of_mem {mat : List ((Nat × Nat) × K)} {r c : Nat} {x : K}
    (hu : ∀ e ∈ mat, ∀ f ∈ mat, e.1 = f.1 → e = f) (h : ((r, c), x) ∈ mat) : toMatrix mat r c = x := by
  have key : ∀ (l : List ((Nat × Nat) × K)) (y : K), (∀ e ∈ l, e.1 = (r, c) → e.2 = x) →
      (y = x ∨ ((r, c), x) ∈ l) → l.foldl (fun x e => if e.1 = (r, c) then e.2 else x) y = x := by
    intro l
    induction l with
    | nil => intro y _ h; simpa using h
    | cons e l ih =>
      intro y h1 h2
      rw [List.foldl_cons]
      refine ih _ (fun f hf => h1 f (by simp [hf])) ?_
      split
      · rename_i he
        exact .inl (h1 e (by simp) he)
      · rename_i he
        rcases h2 with h2 | h2
        · exact .inl h2
        · rcases List.mem_cons.1 h2 with h2 | h2
          · exact absurd (by rw [← h2]) he
          · exact .inr h2
  exact key mat 0 (fun e he h' => by rw [hu e he _ h h']) (.inr h)

theorem toMatrix_of_not_mem {mat : List ((Nat × Nat) × K)} {r c : Nat} (h : ∀ e ∈ mat, e.1 ≠ (r, c)) :
    toMatrix mat r c = 0 := by
  have key : ∀ (l : List ((Nat × Nat) × K)) (y : K), (∀ e ∈ l, e.1 ≠ (r, c)) →
      l.foldl (fun x e => if e.1 = (r, c) then e.2 else x) y = y := by
    intro l
    induction l with
    | nil => intro y _; rfl
    | cons e l ih =>
      intro y h1
      rw [List.foldl_cons, if_neg (h1 e (by simp)), ih _ fun f hf => h1 f (by simp [hf])]
  exact key mat 0 h

omit [CommRing K] in
theorem fold_max_le (f : (Nat × Nat) × K → Nat) (l : List ((Nat × Nat) × K)) :
    ∀ y, y ≤ l.foldl (fun x e => max x (1 + f e)) y ∧ ∀ e ∈ l, f e < l.foldl (fun x e => max x (1 + f e)) y := by
  induction l with
  | nil => simp
  | cons e l ih =>
    intro y
    rw [List.foldl_cons]
    have := ih (max y (1 + f e))
    refine ⟨by omega, fun g hg => ?_⟩
    rcases List.mem_cons.1 hg with rfl | hg
    · omega
    · exact this.2 g hg

omit [CommRing K] in
theorem lt_nrows {mat : List ((Nat × Nat) × K)} {e : (Nat × Nat) × K} (h : e ∈ mat) : e.1.1 < nrows mat :=
  (fold_max_le (fun e => e.1.1) mat 0).2 e h

omit [CommRing K] in
theorem lt_ncols {mat : List ((Nat × Nat) × K)} {e : (Nat × Nat) × K} (h : e ∈ mat) : e.1.2 < ncols mat :=
  (fold_max_le (fun e => e.1.2) mat 0).2 e h

end Matrix

section Link

variable {near : K → K → Bool} {s : Parts Q K}

open scoped Classical in
/-- The terms in a block of a link. -/
noncomputable def block (qn : SiteTerm → Q) (terms : List (HTerm K)) (n : Nat) (q : Q) : Finset (HTerm K) :=
  terms.toFinset.filter fun t => Crosses n t ∧ lq qn (t, n + 1) = q

omit [CommRing K] in
theorem mem_block {n : Nat} {q : Q} {t : HTerm K} :
    t ∈ block qn terms n q ↔ t ∈ terms ∧ Crosses n t ∧ lq qn (t, n + 1) = q := by
  simp [block]

/-- The positions of a term in the bases of its block. -/
def rowOf (s : Parts Q K) (n : Nat) (q : Q) (t : HTerm K) : Nat := (s.left n q).idxOf (vl (t, n + 1))
def colOf (s : Parts Q K) (n : Nat) (q : Q) (t : HTerm K) : Nat := (s.right n q).idxOf (vr (t, n))

theorem mem_mat (hok : TermsOk qn terms N) (hi : Inv qn near opsOf (terms.flatMap visitsOf) s) {n : Nat} {q : Q}
    {e : (Nat × Nat) × K} :
    e ∈ s.mat n q ↔ ∃ t ∈ block qn terms n q, e = ((rowOf s n q t, colOf s n q t), t.coef) := by
  rw [hi.mat, List.mem_map]
  constructor
  · rintro ⟨⟨t, m⟩, hv, rfl⟩
    rw [List.mem_filter, mem_visits hok, decide_eq_true_eq] at hv
    obtain ⟨⟨ht, h1, h2⟩, e, e1, h3⟩ := hv
    simp only at e ht h1 h2 h3
    subst e
    have hs := hok.sorted t ht
    rw [vl_ne hs (hok.ne t ht)] at h3
    refine ⟨t, mem_block.2 ⟨ht, ⟨by omega, by omega⟩, e1.symm⟩, ?_⟩
    simp only [vr_succ hs]
    rfl
  · rintro ⟨t, ht, rfl⟩
    obtain ⟨ht, ⟨h1, h2⟩, h3⟩ := mem_block.1 ht
    have hs := hok.sorted t ht
    refine ⟨(t, n + 1), ?_, ?_⟩
    · rw [List.mem_filter, mem_visits hok, decide_eq_true_eq]
      refine ⟨⟨ht, ?_, ?_⟩, rfl, h3.symm, (vl_ne hs (hok.ne t ht) _).2 ?_⟩ <;> (try simp only) <;> omega
    · simp only [vr_succ hs]
      rfl

theorem left_in (hok : TermsOk qn terms N) (hi : Inv qn near opsOf (terms.flatMap visitsOf) s) {n : Nat} {q : Q}
    {t : HTerm K} (ht : t ∈ block qn terms n q) : vl (t, n + 1) ∈ s.left n q := by
  obtain ⟨ht, ⟨h1, h2⟩, h3⟩ := mem_block.1 ht
  have hs := hok.sorted t ht
  rw [hi.left_mem]
  refine ⟨(t, n + 1), ?_, ?_⟩
  · rw [mem_visits hok]
    refine ⟨ht, ?_, ?_⟩ <;> simp only <;> omega
  · rw [addsLeft, if_pos]
    refine ⟨rfl, h3.symm, (vl_ne hs (hok.ne t ht) _).2 ?_⟩
    omega

theorem right_in (hok : TermsOk qn terms N) (hi : Inv qn near opsOf (terms.flatMap visitsOf) s) {n : Nat} {q : Q}
    {t : HTerm K} (ht : t ∈ block qn terms n q) : vr (t, n) ∈ s.right n q := by
  obtain ⟨ht, ⟨h1, h2⟩, h3⟩ := mem_block.1 ht
  have hs := hok.sorted t ht
  rw [hi.right_mem]
  refine ⟨(t, n + 1), ?_, ?_⟩
  · rw [mem_visits hok]
    refine ⟨ht, ?_, ?_⟩ <;> simp only <;> omega
  · have := addsRight_left qn (v := (t, n + 1)) (by simp) ((vl_ne hs (hok.ne t ht) _).2 (by omega))
    rw [vr_succ hs, h3] at this
    exact this

theorem colOf_inj (hok : TermsOk qn terms N) (hi : Inv qn near opsOf (terms.flatMap visitsOf) s) {n : Nat} {q : Q}
    {t u : HTerm K} (ht : t ∈ block qn terms n q) (_ : u ∈ block qn terms n q) :
    colOf s n q t = colOf s n q u ↔ vr (t, n) = vr (u, n) :=
  ⟨fun h => (List.idxOf_inj (right_in hok hi ht)).1 h, fun h => by rw [colOf, h]; rfl⟩

theorem rowOf_inj (hok : TermsOk qn terms N) (hi : Inv qn near opsOf (terms.flatMap visitsOf) s) {n : Nat} {q : Q}
    {t u : HTerm K} (ht : t ∈ block qn terms n q) (_ : u ∈ block qn terms n q) :
    rowOf s n q t = rowOf s n q u ↔ vl (t, n + 1) = vl (u, n + 1) :=
  ⟨fun h => (List.idxOf_inj (left_in hok hi ht)).1 h, fun h => by rw [rowOf, h]; rfl⟩

/-- The terms of a block are told by their positions. -/
theorem mat_unique (hok : TermsOk qn terms N) (hi : Inv qn near opsOf (terms.flatMap visitsOf) s) {n : Nat} {q : Q} :
    ∀ e ∈ s.mat n q, ∀ f ∈ s.mat n q, e.1 = f.1 → e = f := by
  intro e he f hf h
  obtain ⟨t, ht, rfl⟩ := (mem_mat hok hi).1 he
  obtain ⟨u, hu, rfl⟩ := (mem_mat hok hi).1 hf
  simp only [Prod.mk.injEq] at h
  rw [rowOf_inj hok hi ht hu, colOf_inj hok hi ht hu] at h
  have ht' := (mem_block.1 ht).1
  have hu' := (mem_block.1 hu).1
  rw [hok.inj ht' hu' (by rw [← vl_vr (hok.sorted t ht') n, ← vl_vr (hok.sorted u hu') n, h.1, h.2])]

/-- The elements of the matrix of a block, for the row of a term. -/
theorem matrix_sum (hok : TermsOk qn terms N) (hi : Inv qn near opsOf (terms.flatMap visitsOf) s) {n : Nat} {q : Q}
    {t0 : HTerm K} (ht0 : t0 ∈ block qn terms n q) (k : Nat) :
    toMatrix (s.mat n q) (rowOf s n q t0) k =
      ∑ t ∈ block qn terms n q with vl (t, n + 1) = vl (t0, n + 1), if colOf s n q t = k then t.coef else 0 := by
  by_cases h : ∃ t ∈ block qn terms n q, vl (t, n + 1) = vl (t0, n + 1) ∧ colOf s n q t = k
  · obtain ⟨t, ht, h1, h2⟩ := h
    rw [Finset.sum_eq_single t]
    · rw [if_pos h2]
      refine toMatrix_of_mem (mat_unique hok hi) ((mem_mat hok hi).2 ⟨t, ht, ?_⟩)
      rw [h2, (rowOf_inj hok hi ht ht0).2 h1]
    · intro u hu hne
      rw [Finset.mem_filter] at hu
      rw [if_neg]
      intro h3
      apply hne
      rw [← h2, colOf_inj hok hi hu.1 ht] at h3
      have ht' := (mem_block.1 ht).1
      have hu' := (mem_block.1 hu.1).1
      exact hok.inj hu' ht' (by
        rw [← vl_vr (hok.sorted t ht') n, ← vl_vr (hok.sorted u hu') n, hu.2, h1, h3])
    · intro h3
      exact absurd (Finset.mem_filter.2 ⟨ht, h1⟩) h3
  · rw [Finset.sum_eq_zero]
    · refine toMatrix_of_not_mem fun e he h' => h ?_
      obtain ⟨t, ht, rfl⟩ := (mem_mat hok hi).1 he
      simp only [Prod.mk.injEq] at h'
      exact ⟨t, ht, (rowOf_inj hok hi ht ht0).1 h'.1, h'.2⟩
    · intro t ht
      rw [Finset.mem_filter] at ht
      rw [if_neg fun h' => h ⟨t, ht.1, ht.2, h'⟩]

/-- What is assumed of a factorization of the matrix `M` of a block: `M V V† = M`. This is so if `M = U D V†` with
orthonormal columns of `V`, and no singular value which is not zero is dropped. -/
def Keeps [StarRing K] (mat : List ((Nat × Nat) × K)) (f : Nat × (Nat → Nat → K)) : Prop :=
  ∀ l < nrows mat, ∀ j < ncols mat, ∑ k ∈ range (ncols mat), toMatrix mat l k *
    ∑ r ∈ range f.1, f.2 k r * Star.star (f.2 j r) = toMatrix mat l j

/-- The row of a block, times a vector. -/
theorem row_sum (hok : TermsOk qn terms N) (hi : Inv qn near opsOf (terms.flatMap visitsOf) s) {n : Nat} {q : Q}
    {t0 : HTerm K} (ht0 : t0 ∈ block qn terms n q) (Y : Nat → K) :
    ∑ k ∈ range (ncols (s.mat n q)), toMatrix (s.mat n q) (rowOf s n q t0) k * Y k =
      ∑ t ∈ block qn terms n q with vl (t, n + 1) = vl (t0, n + 1), t.coef * Y (colOf s n q t) := by
  simp only [matrix_sum hok hi ht0, Finset.sum_mul]
  rw [Finset.sum_comm]
  refine Finset.sum_congr rfl fun t ht => ?_
  rw [Finset.mem_filter] at ht
  have hlt : colOf s n q t < ncols (s.mat n q) := lt_ncols ((mem_mat hok hi).2 ⟨t, ht.1, rfl⟩)
  simp only [ite_mul, zero_mul]
  rw [Finset.sum_ite_eq, if_pos (by simpa using hlt)]

/-- The factorization keeps sums over the terms of a block, if what is summed depends on the left part of the term. -/
theorem project [StarRing K] (hok : TermsOk qn terms N) (hi : Inv qn near opsOf (terms.flatMap visitsOf) s) {n : Nat} {q : Q}
    {f : Nat × (Nat → Nat → K)} (hf : Keeps (s.mat n q) f) (G : List SiteTerm → K) {t0 : HTerm K}
    (ht0 : t0 ∈ block qn terms n q) :
    ∑ t ∈ block qn terms n q, t.coef * G (vl (t, n + 1)) *
        ∑ r ∈ range f.1, f.2 (colOf s n q t) r * Star.star (f.2 (colOf s n q t0) r) =
      ∑ t ∈ block qn terms n q with vr (t, n) = vr (t0, n), t.coef * G (vl (t, n + 1)) := by
  classical
  have hj : colOf s n q t0 < ncols (s.mat n q) := lt_ncols ((mem_mat hok hi).2 ⟨t0, ht0, rfl⟩)
  have gen : ∀ Y : Nat → K, ∑ t ∈ block qn terms n q, t.coef * G (vl (t, n + 1)) * Y (colOf s n q t) =
      ∑ l ∈ (block qn terms n q).image (fun t => vl (t, n + 1)), G l *
        ∑ t ∈ block qn terms n q with vl (t, n + 1) = l, t.coef * Y (colOf s n q t) := by
    intro Y
    rw [← Finset.sum_fiberwise_of_maps_to (g := fun t => vl (t, n + 1)) (t := (block qn terms n q).image _)
      fun t ht => Finset.mem_image_of_mem _ ht]
    refine Finset.sum_congr rfl fun l _ => ?_
    rw [Finset.mul_sum]
    refine Finset.sum_congr rfl fun t ht => ?_
    rw [Finset.mem_filter] at ht
    rw [ht.2]
    ring
  have rhs : ∑ t ∈ block qn terms n q with vr (t, n) = vr (t0, n), t.coef * G (vl (t, n + 1)) =
      ∑ t ∈ block qn terms n q, t.coef * G (vl (t, n + 1)) *
        (fun k => if k = colOf s n q t0 then (1 : K) else 0) (colOf s n q t) := by
    rw [Finset.sum_filter]
    refine Finset.sum_congr rfl fun t ht => ?_
    simp only [colOf_inj hok hi ht ht0]
    split <;> simp
  rw [rhs, gen fun k => ∑ r ∈ range f.1, f.2 k r * Star.star (f.2 (colOf s n q t0) r),
    gen fun k => if k = colOf s n q t0 then (1 : K) else 0]
  refine Finset.sum_congr rfl fun l hl => ?_
  obtain ⟨t1, ht1, rfl⟩ := Finset.mem_image.1 hl
  rw [← row_sum hok hi ht1 fun k => ∑ r ∈ range f.1, f.2 k r * Star.star (f.2 (colOf s n q t0) r),
    ← row_sum hok hi ht1 fun k => if k = colOf s n q t0 then (1 : K) else 0]
  rw [hf _ (lt_nrows ((mem_mat hok hi).2 ⟨t1, ht1, rfl⟩)) _ hj]
  simp [hj]

end Link

end Verif.AutoMPO
