import Verif.AutoMPO.ExactProps
import Verif.AutoMPO.ToExp
import Verif.AutoMPO.ToExpSets

/-!
# The exponential of a sum of terms is the sum over sets of terms which do not overlap
-/

namespace Verif.AutoMPO

open Finset

variable {K : Type*} [CommRing K]

section Basis

variable {terms : List (HTerm K)} {N : Nat}

omit [CommRing K] in
theorem mem_expFold (n : Nat) (ts : List (HTerm K)) : ∀ (b : List SiteTerm) (x : SiteTerm),
    x ∈ ts.foldl (fun b t => if t.first.i ≤ (n : Int) ∧ (n : Int) < t.last.i ∧ t.first ∉ b then b ++ [t.first] else b) b ↔
      x ∈ b ∨ ∃ t ∈ ts, t.first = x ∧ t.first.i ≤ (n : Int) ∧ (n : Int) < t.last.i := by
  induction ts with
  | nil => simp
  | cons t ts ih =>
    intro b x
    rw [List.foldl_cons, ih]
    simp only [List.mem_cons, exists_eq_or_imp]
    split
    · simp only [List.mem_append, List.mem_singleton]
      grind
    · grind

omit [CommRing K] in
theorem nodup_expFold (n : Nat) (ts : List (HTerm K)) : ∀ b : List SiteTerm, b.Nodup →
    (ts.foldl (fun b t => if t.first.i ≤ (n : Int) ∧ (n : Int) < t.last.i ∧ t.first ∉ b then b ++ [t.first] else b) b).Nodup := by
  induction ts with
  | nil => simp
  | cons t ts ih =>
    intro b hb
    rw [List.foldl_cons]
    refine ih _ ?_
    split
    · rename_i h
      exact List.nodup_append.2 ⟨hb, by simp, by grind⟩
    · exact hb

omit [CommRing K] in
theorem mem_expBasis (n : Nat) (x : SiteTerm) : x ∈ expBasis terms n ↔
    x = IL ∨ ∃ t ∈ terms, t.first = x ∧ t.first.i ≤ (n : Int) ∧ (n : Int) < t.last.i := by
  rw [expBasis, mem_expFold, List.mem_singleton]

omit [CommRing K] in
theorem nodup_expBasis (n : Nat) : (expBasis terms n).Nodup := nodup_expFold n terms _ (by simp)

end Basis

/-- The first and the last site of a term. -/
def lo (t : HTerm K) : Nat := t.first.i.toNat
def hi (t : HTerm K) : Nat := t.last.i.toNat

/-- The operators of a term on its sites, times `-tau` and its coefficient. -/
def termWeight (el : Name → Nat → K) (tau : K) (t : HTerm K) : K :=
  -tau * t.coef * ∏ m ∈ Icc (lo t) (hi t), termSite el t.ops m

/-- The sum over the sets of terms up to site `n` which do not overlap. -/
def nonOverlap (el : Name → Nat → K) (terms : List (HTerm K)) (tau : K) (n : Nat) : K :=
  setSum (fun i : Fin terms.length => lo terms[i]) (fun i => hi terms[i]) (fun i => termWeight el tau terms[i]) (el nId) n

section Step

variable {el : Name → Nat → K} {terms : List (HTerm K)} {tau : K} {N : Nat}

theorem Good.lo_pos {t : HTerm K} (h : Good N t.ops) : 1 ≤ lo t := by have := h.first_pos; unfold lo; omega

theorem Good.lo_hi {t : HTerm K} (h : Good N t.ops) : lo t ≤ hi t := by
  rcases h with ⟨a, e, _, _⟩ | ⟨a, b, e, _, _, _⟩ <;> simp [lo, hi, HTerm.first, HTerm.last, e]
  omega

theorem nonOverlap_zero (hg : ∀ t ∈ terms, Good N t.ops) : nonOverlap el terms tau 0 = 1 :=
  setSum_zero (fun i => (hg _ (List.getElem_mem i.2)).lo_pos) fun i => (hg _ (List.getElem_mem i.2)).lo_hi

theorem nonOverlap_succ (hg : ∀ t ∈ terms, Good N t.ops) (n : Nat) :
    nonOverlap el terms tau (n + 1) = nonOverlap el terms tau n * el nId (n + 1) +
      (terms.map fun t => if hi t = n + 1 then nonOverlap el terms tau (lo t - 1) * termWeight el tau t else 0).sum := by
  have h1 : ∀ i : Fin terms.length, 1 ≤ lo terms[i] := fun i => (hg _ (List.getElem_mem i.2)).lo_pos
  have h2 : ∀ i : Fin terms.length, lo terms[i] ≤ hi terms[i] := fun i => (hg _ (List.getElem_mem i.2)).lo_hi
  refine (setSum_succ h1 h2 n).trans ?_
  congr 1
  exact Fin.sum_univ_fun_getElem terms fun t =>
    if hi t = n + 1 then nonOverlap el terms tau (lo t - 1) * termWeight el tau t else 0

/-- The vector after `n` sites. -/
def expVec (el : Name → Nat → K) (terms : List (HTerm K)) (tau : K) (n : Nat) (x : SiteTerm) : K :=
  if x = IL then nonOverlap el terms tau n
  else nonOverlap el terms tau (x.i.toNat - 1) * (-tau * ∏ m ∈ Icc x.i.toNat n, stringSite el x m)

/-- The sum over the rows of one column. -/
theorem expColumn {l : List SiteTerm} (hl : l.Nodup) (g : SiteTerm → K) (n : Nat) (c : SiteTerm) :
    (l.map fun r => g r * expEntry el terms tau n r c).sum =
      (if c.i = (n : Int) ∧ IL ∈ l then g IL * (el (startTerm c.op) n * -tau) else 0) +
      (if c ∈ l then g c * (if fermiName c.op then el nF n else el nId n) else 0) +
      (if c = IL then (terms.map fun t => (onSite n t.ops : K) *
        (if t.last.i = (n : Int) ∧ t.first ∈ l then g t.first * (t.coef * el (endTerm t.last.op) n) else 0)).sum else 0) +
      (if c = IL ∧ IL ∈ l then (terms.map fun t => (onSite n t.ops : K) *
        (if t.first.i = t.last.i then g IL * (t.coef * el t.first.op n * -tau) else 0)).sum else 0) := by
  simp only [expEntry, mul_add, List.sum_map_add]
  congr 1
  · congr 1
    · congr 1
      · by_cases hc : c.i = (n : Int)
        · have := sum_one hl IL fun r => g r * (el (startTerm c.op) n * -tau)
          simpa [hc] using this
        · simp [hc]
      · have := sum_one hl c fun r => g r * (if fermiName c.op = true then el nF n else el nId n)
        rw [← this]
        refine congrArg List.sum (List.map_congr_left fun r _ => ?_)
        by_cases h : r = c
        · simp [h]
        · simp [h, Ne.symm h]
    · by_cases hc : c = IL
      · simp only [hc, if_true]
        have h1 : ∀ r, g r * (((byN terms n).filter fun t => decide (r = t.first ∧ t.last.i = (n : Int))).map
            fun t => t.coef * el (endTerm t.last.op) n).sum =
            (terms.map fun t => (onSite n t.ops : K) * (if r = t.first ∧ t.last.i = (n : Int) then
              g r * (t.coef * el (endTerm t.last.op) n) else 0)).sum := by
          intro r
          rw [sum_filter_ite, sum_byN, ← List.sum_map_mul_left]
          refine congrArg List.sum (List.map_congr_left fun t _ => ?_)
          split <;> ring
        simp only [h1]
        rw [sum_comm_list]
        refine congrArg List.sum (List.map_congr_left fun t _ => ?_)
        rw [List.sum_map_mul_left]
        congr 1
        by_cases hi : t.last.i = (n : Int)
        · simpa [hi] using sum_one hl t.first fun r => g r * (t.coef * el (endTerm t.last.op) n)
        · simp [hi]
      · simp [hc]
  · by_cases hc : c = IL
    · simp only [hc, and_true, true_and]
      have := sum_one hl IL fun r => g r *
        (((byN terms n).filter fun t => decide (t.first.i = t.last.i)).map fun t => t.coef * el t.first.op n * -tau).sum
      rw [sum_filter_ite, sum_byN] at this
      have h2 : (terms.map fun t => (onSite n t.ops : K) * (if t.first.i = t.last.i then
          g IL * (t.coef * el t.first.op n * -tau) else 0)).sum = g IL * (terms.map fun t => (onSite n t.ops : K) *
            (if t.first.i = t.last.i then t.coef * el t.first.op n * -tau else 0)).sum := by
        rw [← List.sum_map_mul_left]
        refine congrArg List.sum (List.map_congr_left fun t _ => ?_)
        split <;> ring
      rw [h2, ← this]
      refine congrArg List.sum (List.map_congr_left fun r _ => ?_)
      rw [sum_filter_ite, sum_byN]
      split <;> simp
    · simp [hc]

theorem prod_Icc_top {f : Nat → K} {a n : Nat} (h : a ≤ n + 1) : ∏ m ∈ Icc a (n + 1), f m = (∏ m ∈ Icc a n, f m) * f (n + 1) := by
  exact prod_Icc_succ_top h f

/-- One term in the column of `IL`. -/
theorem expTerm_step (hg : ∀ t ∈ terms, Good N t.ops) {n : Nat} {t : HTerm K} (ht : t ∈ terms) :
    (if hi t = n + 1 then nonOverlap el terms tau (lo t - 1) * termWeight el tau t else 0) =
      (onSite (n + 1) t.ops : K) * (if t.last.i = ((n + 1 : Nat) : Int) ∧ t.first ∈ expBasis terms n then
        expVec el terms tau n t.first * (t.coef * el (endTerm t.last.op) (n + 1)) else 0) +
      (onSite (n + 1) t.ops : K) * (if t.first.i = t.last.i then
        nonOverlap el terms tau n * (t.coef * el t.first.op (n + 1) * -tau) else 0) := by
  have hgt := hg t ht
  rcases hgt with ⟨a, e, h1, h2⟩ | ⟨a, b, e, h1, h2, h3⟩
  · have ef : t.first = a := by simp [HTerm.first, e]
    have el' : t.last = a := by simp [HTerm.last, e]
    have hnil : a ≠ IL := by rintro rfl; rw [IL_i] at h1; omega
    rw [termWeight, lo, hi, ef, el', e]
    by_cases h : a.i = ((n + 1 : Nat) : Int)
    · have h5 : onSite (n + 1) [a] = 1 := by simp [onSite, h]
      have h6 : termSite el [a] (n + 1) = el a.op (n + 1) := by simp only [termSite]; rw [if_pos h]
      have h7 : a.i.toNat = n + 1 := by omega
      have h8 : a ∉ expBasis terms n := by
        rw [mem_expBasis]
        rintro (h | ⟨u, _, rfl, h', _⟩)
        · exact hnil h
        · omega
      rw [if_pos h7, h7, h5, if_neg fun hh => h8 hh.2, if_pos rfl]
      simp [h6]
      ring
    · have h5 : onSite (n + 1) [a] = 0 := by simp [onSite]; omega
      rw [h5, if_neg (by omega)]
      simp
  · have ef : t.first = a := by simp [HTerm.first, e]
    have el' : t.last = b := by simp [HTerm.last, e]
    have hnil : a ≠ IL := by rintro rfl; rw [IL_i] at h1; omega
    rw [termWeight, lo, hi, ef, el', e, if_neg (c := a.i = b.i) (by omega), mul_zero, add_zero]
    by_cases h : b.i = ((n + 1 : Nat) : Int)
    · have h5 : onSite (n + 1) [a, b] = 1 := by
        have : ¬a.i = ((n + 1 : Nat) : Int) := by omega
        simp only [onSite, List.filter_cons, this, h]
        simp
      have h6 : termSite el [a, b] (n + 1) = el (endTerm b.op) (n + 1) := by
        simp only [termSite]
        rw [if_neg (by omega), if_pos h]
      have h7 : b.i.toNat = n + 1 := by omega
      have h8 : a ∈ expBasis terms n := (mem_expBasis n _).2 (.inr ⟨t, ht, ef, by rw [ef]; omega, by rw [el']; omega⟩)
      have h9 : ∏ m ∈ Icc a.i.toNat n, stringSite el a m = ∏ m ∈ Icc a.i.toNat n, termSite el [a, b] m := by
        refine prod_congr rfl fun m hm => ?_
        rw [mem_Icc] at hm
        simp only [stringSite, termSite]
        by_cases g : a.i = (m : Int)
        · rw [if_neg (by omega), if_pos g, if_pos g]
        · have g1 : a.i < (m : Int) ∧ (m : Int) < b.i := by omega
          have g2 : ¬(m : Int) < a.i := by omega
          have g4 : ¬b.i = (m : Int) := by omega
          simp only [g, g1, g2, g4, and_self, and_true, if_false]
      rw [if_pos h7, if_pos ⟨h, h8⟩, h7, h5, prod_Icc_top (by omega), h6, expVec, if_neg hnil, h9]
      push_cast
      ring
    · rw [if_neg (by omega), if_neg fun hh => h hh.1, mul_zero]

/-- One site. -/
theorem expStep (hg : ∀ t ∈ terms, Good N t.ops) {n : Nat} {l : List SiteTerm} (hl : l.Nodup)
    (hm : ∀ x, x ∈ l ↔ x ∈ expBasis terms n) {c : SiteTerm} (hc : c ∈ expBasis terms (n + 1)) :
    (l.map fun r => expVec el terms tau n r * expEntry el terms tau (n + 1) r c).sum = expVec el terms tau (n + 1) c := by
  have hIL : IL ∈ expBasis terms n := (mem_expBasis n _).2 (.inl rfl)
  have gIL : ∀ n, expVec el terms tau n IL = nonOverlap el terms tau n := fun n => by simp [expVec]
  rw [expColumn hl]
  simp only [hm, hIL, and_true, gIL]
  rcases (mem_expBasis (n + 1) c).1 hc with rfl | ⟨t, ht, rfl, h1, h2⟩
  · have e1 : ¬IL.i = ((n + 1 : Nat) : Int) := by rw [IL_i]; omega
    have : fermiName IL.op = false := by decide
    rw [if_neg e1, if_pos hIL, if_pos rfl, if_pos rfl, gIL, gIL, nonOverlap_succ hg, this, zero_add, add_assoc,
      ← List.sum_map_add]
    congr 1
    refine congrArg List.sum (List.map_congr_left fun t ht => ?_)
    exact (expTerm_step hg ht).symm
  · have hp := (hg t ht).first_pos
    have n1 : t.first ≠ IL := by intro h; rw [h, IL_i] at hp; omega
    rw [if_neg n1, if_neg n1]
    have e4 : ∀ k, expVec el terms tau k t.first =
        nonOverlap el terms tau (t.first.i.toNat - 1) * (-tau * ∏ m ∈ Icc t.first.i.toNat k, stringSite el t.first m) :=
      fun k => by rw [expVec, if_neg n1]
    rw [e4, e4, prod_Icc_top (by omega)]
    by_cases h : t.first.i = ((n + 1 : Nat) : Int)
    · have hnot : t.first ∉ expBasis terms n := fun hh => by
        rcases (mem_expBasis n _).1 hh with h' | ⟨u, _, hu, h', _⟩
        · exact n1 h'
        · rw [hu] at h'; omega
      have h7 : t.first.i.toNat = n + 1 := by omega
      rw [if_pos h, if_neg hnot, h7]
      have : stringSite el t.first (n + 1) = el (startTerm t.first.op) (n + 1) := by
        rw [stringSite, if_neg (by omega), if_pos h]
      rw [this]
      simp
      ring
    · rw [if_neg h, if_pos ((mem_expBasis n _).2 (.inr ⟨t, ht, rfl, by omega, by omega⟩))]
      have e6 : stringSite el t.first (n + 1) = if fermiName t.first.op then el nF (n + 1) else el nId (n + 1) := by
        rw [stringSite, if_neg (by omega), if_neg h]
      rw [e6]
      ring

theorem expProduct_eq (hg : ∀ t ∈ terms, Good N t.ops) {b : Nat → List SiteTerm} (hb : ExpBases terms N b) :
    ∀ n ≤ N, expProduct el terms tau b n = (b n).map (expVec el terms tau n)
  | 0, _ => by
    have h0 : expBasis terms 0 = [IL] := by
      have hm : ∀ x, x ∈ expBasis terms 0 ↔ x = IL := by
        intro x
        rw [mem_expBasis]
        constructor
        · rintro (h | ⟨t, ht, _, h, _⟩)
          · exact h
          · have := (hg t ht).first_pos
            simp at h
            omega
        · exact .inl
      exact List.perm_singleton.1 ((List.perm_ext_iff_of_nodup (nodup_expBasis 0) (by simp)).2 (by simpa using hm))
    have h1 := hb 0 (by omega)
    rw [h0, List.perm_singleton] at h1
    rw [expProduct, h1]
    simp [expVec, nonOverlap_zero hg]
  | n + 1, hn => by
    rw [expProduct, expProduct_eq hg hb n (by omega), expVecMul]
    refine List.map_congr_left fun c hc => ?_
    rw [zip_map]
    exact expStep hg ((hb n (by omega)).nodup_iff.2 (nodup_expBasis n)) (fun x => (hb n (by omega)).mem_iff)
      ((hb (n + 1) hn).mem_iff.1 hc)

end Step

/-- The value of `toExpH_ZW1`. -/
theorem expElement_eq (el : Name → Nat → K) (terms : List (HTerm K)) (tau : K) (N : Nat) (b : Nat → List SiteTerm)
    (hb : ExpBases terms N b) (hg : ∀ t ∈ terms, Good N t.ops) :
    expElement el terms tau N b = .ok (nonOverlap el terms tau N) := by
  have h1 : terms.any (fun t => decide (t.ops.length > 2)) = false := by
    simp only [List.any_eq_false, decide_eq_true_eq]
    intro t ht
    rcases hg t ht with ⟨a, e, _⟩ | ⟨a, b, e, _⟩ <;> simp [e]
  have h2 : terms.any (fun t => decide (t.ops.length = 0)) = false := by
    simp only [List.any_eq_false, decide_eq_true_eq]
    intro t ht
    rcases hg t ht with ⟨a, e, _⟩ | ⟨a, b, e, _⟩ <;> simp [e]
  have h3 : terms.any (fun t => t.ops.any fun st => decide (st.i < 0 ∨ (N : Int) < st.i)) = false := by
    simp only [List.any_eq_false, List.any_eq_true, decide_eq_true_eq, not_exists, not_and]
    intro t ht st hst
    rcases hg t ht with ⟨a, e, _⟩ | ⟨a, b, e, _⟩
    · rw [e] at hst; simp at hst; subst hst; omega
    · rw [e] at hst; simp at hst; rcases hst with rfl | rfl <;> omega
  rw [expElement, h1, h2, h3, expProduct_eq hg hb N (le_refl _)]
  have h0 : expBasis terms N = [IL] := by
    have hm : ∀ x, x ∈ expBasis terms N ↔ x = IL := by
      intro x
      rw [mem_expBasis]
      constructor
      · rintro (h | ⟨t, ht, _, _, h⟩)
        · exact h
        · have := (hg t ht).last_le
          omega
      · exact .inl
    exact List.perm_singleton.1 ((List.perm_ext_iff_of_nodup (nodup_expBasis N) (by simp)).2 (by simpa using hm))
  have h4 := hb N (le_refl _)
  rw [h0, List.perm_singleton] at h4
  rw [h4]
  simp [expVec]

end Verif.AutoMPO
