import Verif.AutoMPO.ExactEx
import Verif.AutoMPO.ToExpProps
import Verif.AutoMPO.ToExpOrder
import Mathlib.Analysis.Matrix.Normed
import Mathlib.Analysis.Normed.Operator.Asymptotics
import Mathlib.Topology.Instances.Matrix

/-!
# The exponential of a sum of terms (C81)
-/

namespace Verif.AutoMPO

open Finset Asymptotics Topology

section Sets

variable {K : Type*} [CommRing K]

/-- The product of the terms of the set `S`, without the powers of `-tau`. -/
def setCoef (el : Name → Nat → K) (terms : List (HTerm K)) (N : Nat) (S : Finset (Fin terms.length)) : K :=
  (∏ i ∈ S, terms[i].coef * ∏ m ∈ Icc (lo terms[i]) (hi terms[i]), termSite el terms[i].ops m) *
    ∏ m ∈ free (fun i : Fin terms.length => lo terms[i]) (fun i => hi terms[i]) S N, el nId m

/-- The sets of terms no two of which share a site. -/
def apartSets (terms : List (HTerm K)) : Finset (Finset (Fin terms.length)) :=
  univ.filter fun S => Apart (fun i : Fin terms.length => lo terms[i]) (fun i => hi terms[i]) S

theorem nonOverlap_eq {el : Name → Nat → K} {terms : List (HTerm K)} {tau : K} {N : Nat} (hg : ∀ t ∈ terms, Good N t.ops) :
    nonOverlap el terms tau N = ∑ S ∈ apartSets terms, (-tau) ^ S.card * setCoef el terms N S := by
  rw [nonOverlap, setSum]
  refine sum_congr ?_ fun S _ => ?_
  · ext S
    simp only [apartSets, mem_filter, mem_univ, true_and, and_iff_left_iff_imp]
    intro _ i _
    have h := (hg _ (List.getElem_mem i.2)).last_le
    unfold hi
    have : terms[i].last.i ≤ N := h
    omega
  · simp only [termWeight, setCoef, mul_assoc, prod_mul_distrib, prod_const]

/-- **C81**: If each term has one operator or two operators on different sites, the result of `toExpH` is the sum over all
sets of terms of which no two share a site, of the product of the terms times `(-tau)` to the power of their number; the
sites which no term has get the identity.

Missing: terms with two operators on one site (`C81_on_site_counterexample`). -/
theorem C81_sets_partial (el : Name → Nat → K) (terms : List (HTerm K)) (tau : K) (N : Nat) (b : Nat → List SiteTerm)
    (hb : ExpBases terms N b) (hg : ∀ t ∈ terms, Good N t.ops) :
    toExpH none el terms tau N b = .ok (∑ S ∈ univ.filter fun S : Finset (Fin terms.length) =>
        ∀ i ∈ S, ∀ j ∈ S, i ≠ j → terms[i].last.i < terms[j].first.i ∨ terms[j].last.i < terms[i].first.i,
      (-tau) ^ S.card *
        ((∏ i ∈ S, terms[i].coef * ∏ m ∈ Icc terms[i].first.i.toNat terms[i].last.i.toNat, termSite el terms[i].ops m) *
          ∏ m ∈ (Icc 1 N).filter fun m : Nat => ∀ i ∈ S, ¬(terms[i].first.i ≤ (m : Int) ∧ (m : Int) ≤ terms[i].last.i), el nId m)) := by
  rw [toExpH, Option.getD_none, if_pos rfl, expElement_eq el terms tau N b hb hg, nonOverlap_eq hg]
  have h1 : ∀ i : Fin terms.length, 1 ≤ terms[i].first.i := fun i => (hg _ (List.getElem_mem i.2)).first_pos
  have h2 : ∀ i : Fin terms.length, terms[i].first.i ≤ terms[i].last.i := fun i => by
    have h3 := (hg _ (List.getElem_mem i.2)).lo_hi
    have := h1 i
    change terms[i].first.i.toNat ≤ terms[i].last.i.toNat at h3
    omega
  congr 1
  refine sum_congr ?_ fun S _ => ?_
  · ext S
    rw [apartSets, mem_filter, mem_filter]
    simp only [mem_univ, true_and, Apart, lo, hi]
    refine forall_congr' fun i => forall_congr' fun _ => forall_congr' fun j => forall_congr' fun _ => forall_congr' fun _ => ?_
    have := h1 i; have := h1 j; have := h2 i; have := h2 j
    omega
  · rw [setCoef]
    congr 2
    refine prod_congr ?_ fun _ _ => rfl
    ext m
    rw [mem_free, mem_filter, mem_Icc]
    simp only [lo, hi]
    refine and_congr_right fun hm => ?_
    refine forall_congr' fun i => forall_congr' fun _ => ?_
    have := h1 i; have := h2 i
    omega

/-- The set without terms. -/
theorem setCoef_empty (el : Name → Nat → K) (terms : List (HTerm K)) (N : Nat) :
    setCoef el terms N ∅ = ∏ m ∈ Icc 1 N, el nId m := by
  simp [setCoef, free]

/-- The set of one term. -/
theorem setCoef_one {el : Name → Nat → K} {terms : List (HTerm K)} {N : Nat} (hg : ∀ t ∈ terms, Good N t.ops)
    (i : Fin terms.length) :
    setCoef el terms N {i} = terms[i].coef * ∏ m ∈ Icc 1 N, termSite el terms[i].ops m := by
  have hgi : Good N terms[i].ops := hg _ (List.getElem_mem i.2)
  have hlo := hgi.lo_pos
  have hlast := hgi.last_le
  rw [setCoef, prod_singleton, mul_assoc]
  congr 1
  rw [← prod_filter_mul_prod_filter_not (Icc 1 N) fun m => lo terms[i] ≤ m ∧ m ≤ hi terms[i]]
  congr 1
  · refine prod_congr ?_ fun _ _ => rfl
    ext m
    simp only [mem_Icc, mem_filter]
    unfold hi at *
    omega
  · refine prod_congr ?_ fun m hm => ?_
    · ext m
      simp [free]
    · simp only [mem_filter, mem_Icc] at hm
      obtain ⟨_, hm⟩ := hm
      rcases hgi with ⟨a, e, h1, h2⟩ | ⟨a, b, e, h1, h2, h3⟩
      · simp only [lo, hi, HTerm.first, HTerm.last, e, List.headD_cons, List.getLastD_cons] at hm
        simp only [e, termSite]
        rw [if_neg]
        intro h
        exact hm (by simp; omega)
      · simp only [lo, hi, HTerm.first, HTerm.last, e, List.headD_cons, List.getLastD_cons] at hm
        simp only [e, termSite]
        rw [if_neg, if_neg, if_neg]
        · rintro ⟨_, h⟩
          exact hm (by simp; omega)
        · intro h
          exact hm (by simp; omega)
        · intro h
          exact hm (by simp; omega)

end Sets

section Matrices

variable {N : Nat} {d : Fin N → Nat}

/-- The element of the operator `a` of site `m` (from 1) in the row `s` and the column `s'`. -/
def opElem (ops : Name → (n : Fin N) → Matrix (Fin (d n)) (Fin (d n)) ℂ) (s s' : (n : Fin N) → Fin (d n)) (a : Name) (m : Nat) : ℂ :=
  if h : m - 1 < N then ops a ⟨m - 1, h⟩ (s ⟨m - 1, h⟩) (s' ⟨m - 1, h⟩) else 0

/-- The matrix of the sum of the terms: each is its coefficient times the product over the sites of its operators. -/
def sumMat (ops : Name → (n : Fin N) → Matrix (Fin (d n)) (Fin (d n)) ℂ) (terms : List (HTerm ℂ)) :
    Matrix ((n : Fin N) → Fin (d n)) ((n : Fin N) → Fin (d n)) ℂ :=
  fun s s' => (terms.map fun t => t.coef * ((List.range N).map fun m => termSite (opElem ops s s') t.ops (m + 1)).prod).sum

theorem prod_list_range (f : Nat → ℂ) (N : Nat) : ((List.range N).map fun m => f (m + 1)).prod = ∏ m ∈ Icc 1 N, f m := by
  induction N with
  | zero => simp
  | succ N ih => rw [List.range_succ, List.map_append, List.prod_append, ih, prod_Icc_succ_top (by omega)]; simp

theorem prod_fin (f : Nat → ℂ) (N : Nat) : ∏ m ∈ Icc 1 N, f m = ∏ i : Fin N, f (i + 1) := by
  induction N with
  | zero => simp
  | succ N ih => rw [prod_Icc_succ_top (by omega), ih, Fin.prod_univ_castSucc]; simp

/-- The matrix of the result of `toExpH`. -/
def expMat (ops : Name → (n : Fin N) → Matrix (Fin (d n)) (Fin (d n)) ℂ) (terms : List (HTerm ℂ)) (tau : ℂ) :
    Matrix ((n : Fin N) → Fin (d n)) ((n : Fin N) → Fin (d n)) ℂ :=
  fun s s' => nonOverlap (opElem ops s s') terms tau N

open scoped Matrix.Norms.Operator

/-- The expansion in powers of `tau`. -/
theorem expand (ops : Name → (n : Fin N) → Matrix (Fin (d n)) (Fin (d n)) ℂ) (hId : ∀ n, ops nId n = 1) (terms : List (HTerm ℂ))
    (hg : ∀ t ∈ terms, Good N t.ops) :
    ∃ R : Matrix ((n : Fin N) → Fin (d n)) ((n : Fin N) → Fin (d n)) ℂ,
      (fun tau : ℂ => expMat ops terms tau - (1 - tau • sumMat ops terms + tau ^ 2 • R))
        =O[𝓝 0] fun tau : ℂ => tau ^ 3 := by
  let M : Finset (Fin terms.length) → Matrix ((n : Fin N) → Fin (d n)) ((n : Fin N) → Fin (d n)) ℂ :=
    fun S s s' => setCoef (opElem ops s s') terms N S
  have hU : ∀ tau : ℂ, expMat ops terms tau =
      ∑ S ∈ apartSets terms, (-tau) ^ S.card • M S := by
    intro tau
    ext s s'
    rw [expMat, nonOverlap_eq hg, Matrix.sum_apply]
    rfl
  have h0 : M ∅ = 1 := by
    ext s s'
    change setCoef _ _ _ _ = _
    rw [setCoef_empty, prod_fin]
    have : ∀ i : Fin N, opElem ops s s' nId (i + 1) = if s i = s' i then 1 else 0 := by
      intro i
      simp [opElem, hId, Matrix.one_apply]
    simp only [this, Matrix.one_apply]
    rw [prod_ite_zero]
    simp [funext_iff]
  have h1 : ∑ S ∈ (apartSets terms).filter fun S => S.card = 1, M S = sumMat ops terms := by
    have : ((apartSets terms).filter fun S => S.card = 1) = univ.image fun i => ({i} : Finset (Fin terms.length)) := by
      ext S
      simp only [apartSets, mem_filter, mem_univ, true_and, mem_image, card_eq_one]
      constructor
      · rintro ⟨_, i, rfl⟩
        exact ⟨i, rfl⟩
      · rintro ⟨i, rfl⟩
        exact ⟨by intro j hj k hk h; simp at hj hk; exact absurd (hj.trans hk.symm) h, i, rfl⟩
    rw [this, sum_image (by intro i _ j _ h; simpa using h)]
    ext s s'
    rw [Matrix.sum_apply]
    have e : ∀ i : Fin terms.length, M {i} s s' = terms[i].coef * ((List.range N).map fun m =>
        termSite (opElem ops s s') terms[i].ops (m + 1)).prod := by
      intro i
      rw [prod_list_range]
      exact setCoef_one hg i
    simp only [e]
    exact Fin.sum_univ_fun_getElem terms fun t => t.coef * ((List.range N).map fun m =>
        termSite (opElem ops s s') t.ops (m + 1)).prod
  have h00 : ∑ S ∈ (apartSets terms).filter fun S => S.card = 0, M S = 1 := by
    have : ((apartSets terms).filter fun S => S.card = 0) = {∅} := by
      ext S
      simp only [apartSets, mem_filter, mem_univ, true_and, mem_singleton, card_eq_zero]
      constructor
      · exact fun h => h.2
      · rintro rfl
        exact ⟨by simp [Apart], rfl⟩
    rw [this, sum_singleton, h0]
  refine ⟨∑ S ∈ (apartSets terms).filter fun S => S.card = 2, M S, ?_⟩
  have key : ∀ tau : ℂ, expMat ops terms tau - (1 - tau • sumMat ops terms + tau ^ 2 •
      ∑ S ∈ (apartSets terms).filter fun S => S.card = 2, M S) =
      ∑ S ∈ (apartSets terms).filter fun S => 3 ≤ S.card, tau ^ S.card • ((-1 : ℂ) ^ S.card • M S) := by
    intro tau
    rw [hU, ← h1, ← h00]
    rw [smul_sum, smul_sum, Finset.sum_filter, Finset.sum_filter, Finset.sum_filter, Finset.sum_filter]
    rw [← sum_sub_distrib, ← sum_add_distrib, ← sum_sub_distrib]
    refine sum_congr rfl fun S _ => ?_
    rcases (by omega : S.card = 0 ∨ S.card = 1 ∨ S.card = 2 ∨ 3 ≤ S.card) with h | h | h | h
    · simp [h]
    · simp [h]
    · simp [h]
    · have e0 : S.card ≠ 0 := by omega
      have e1 : S.card ≠ 1 := by omega
      have e2 : S.card ≠ 2 := by omega
      simp only [h, e0, e1, e2, if_true, if_false, sub_zero, add_zero]
      rw [smul_smul, ← mul_pow]
      ring_nf
  refine IsBigO.congr_left ?_ fun tau => (key tau).symm
  refine IsBigO.fun_sum fun S hS => ?_
  exact smul_bigO (mem_filter.1 hS).2 _

/-- The elements of a matrix which is small. -/
theorem elem_bigO {n : Type*} [Fintype n] [DecidableEq n] {f : ℂ → Matrix n n ℂ} {k : Nat} (h : f =O[𝓝 0] fun t : ℂ => t ^ k)
    (s s' : n) : (fun t => f t s s') =O[𝓝 0] fun t : ℂ => t ^ k := by
  let L : Matrix n n ℂ →L[ℂ] ℂ := ⟨Matrix.entryLinearMap ℂ ℂ s s', by fun_prop⟩
  exact (L.isBigO_comp f (𝓝 0)).trans h

/-- **C81**: For terms of one operator or two operators on different sites, `toExpH` agrees with the exponential of `-tau`
times the sum of the terms to first order in `tau`, and its product for the complex times `(1+i)/2 tau` and `(1-i)/2 tau`
agrees with it to second order. The sites may have different dimensions, and the bases be sorted in any way.

Missing: terms with two operators on one site (`C81_on_site_counterexample`). -/
theorem C81_order_partial (ops : Name → (n : Fin N) → Matrix (Fin (d n)) (Fin (d n)) ℂ) (hId : ∀ n, ops nId n = 1)
    (terms : List (HTerm ℂ)) (b : Nat → List SiteTerm) (hb : ExpBases terms N b) (hg : ∀ t ∈ terms, Good N t.ops) :
    ∃ U : ℂ → Matrix ((n : Fin N) → Fin (d n)) ((n : Fin N) → Fin (d n)) ℂ,
      (∀ tau s s', toExpH none (opElem ops s s') terms tau N b = .ok (U tau s s')) ∧
      (∀ s s', (fun tau => U tau s s' - NormedSpace.exp (-tau • sumMat ops terms) s s') =O[𝓝 0] fun tau : ℂ => tau ^ 2) ∧
      ∀ s s', (fun tau => (U ((1 + Complex.I) / 2 * tau) * U ((1 - Complex.I) / 2 * tau)) s s' -
        NormedSpace.exp (-tau • sumMat ops terms) s s') =O[𝓝 0] fun tau : ℂ => tau ^ 3 := by
  obtain ⟨R, hR⟩ := expand ops hId terms hg
  refine ⟨expMat ops terms, fun tau s s' => ?_, ?_, ?_⟩
  · rw [toExpH, Option.getD_none, if_pos rfl, expElement_eq _ terms tau N b hb hg]; exact rfl
  · exact elem_bigO (first_order hR)
  · refine elem_bigO (second_order hR (by ring) ?_)
    linear_combination (1 / 2) * Complex.I_sq

end Matrices

end Verif.AutoMPO
