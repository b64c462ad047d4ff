import Verif.Net.DiagProps

/-!
# C28: diagonal ITensors act as their dense equivalents
-/

namespace Verif.Net

open Verif.Tensor Verif.Tensor.Range Verif.Index Verif.Index.IndexSet Finset

variable {K : Type*} [CommRing K] [DecidableEq K]

omit [DecidableEq K] in
/-- The indices of the product, in either order of the operands. -/
theorem prod_inds {ext : Key → Nat} (d : DG K) (t : DS K) :
    (mul ext t.sem d.sem).inds = keys (t.is.filter (fun i => decide (i.key ∉ keys d.is)) ++ d.is.filter (fun i => decide (i.key ∉ keys t.is))) ∧
    (mul ext d.sem t.sem).inds = keys (d.is.filter (fun i => decide (i.key ∉ keys t.is)) ++ t.is.filter (fun i => decide (i.key ∉ keys d.is))) := by
  constructor <;>
  · simp only [mul, DS.sem, DG.sem, keys, List.map_append, List.filter_map]
    congr 2 <;> exact List.filter_congr fun i _ => by simp

/-- Contraction with a delta which has the effect of renaming an index. -/
theorem replace_ok {ext : Key → Nat} {d : DG K} {t : DS K} (hd : d.OK ext) (ht : t.OK ext) {lab : Key → Int}
    (hl : LabOK lab d.is t.is) (hr : isReplaceDelta d ((keys d.is).map lab) = true) :
    ∃ R : IndexSet, replaceIndex t.is ((keys t.is).map lab) d.is ((keys d.is).map lab) = R ∧
      IsOK ext R ∧ (t.is.map (·.dim)).prod = (R.map (·.dim)).prod ∧
      (∀ k, k ∈ keys R ↔ (k ∈ keys t.is ∧ k ∉ keys d.is) ∨ (k ∈ keys d.is ∧ k ∉ keys t.is)) ∧
      ∀ σ : Key → Nat, (∀ i ∈ R, σ i.key < i.dim) →
        (IT.dense { t with is := R }).getElt (R.map fun i => σ i.key) = .ok (prodVal' d t.sem σ) := by
  -- the two indices of the delta
  obtain ⟨a, b, hab⟩ : ∃ a b, d.is = [a, b] := by
    unfold isReplaceDelta at hr
    split at hr
    · rename_i a b _ _ h _; exact ⟨a, b, h⟩
    · simp at hr
  have hr' : d.store.isEmpty = true ∧ d.val = 1 ∧ a.dim = b.dim ∧ decide (lab a.key < 0) ≠ decide (lab b.key < 0) := by
    unfold isReplaceDelta at hr
    simp only [hab, keys, List.map_cons, List.map_nil, Bool.and_eq_true, beq_iff_eq, bne_iff_ne] at hr
    tauto
  obtain ⟨hst, hv1, hdim, hsg⟩ := hr'
  have kt : ∀ i, i ∈ t.is → i.key ∈ keys t.is := fun i hi => List.mem_map_of_mem hi
  have hka : a.key ∈ keys d.is := by simp [hab, keys]
  have hkb : b.key ∈ keys d.is := by simp [hab, keys]
  have hsa := (hl.sign a.key (Or.inl hka))
  have hsb := (hl.sign b.key (Or.inl hkb))
  -- `x` is the contracted index and `y` the other
  obtain ⟨x, y, hx, hy, hdxy, hmem, hrep⟩ : ∃ x y : Index, x.key ∈ keys t.is ∧ y.key ∉ keys t.is ∧ x.dim = y.dim ∧
      (∀ i, i ∈ d.is ↔ i = x ∨ i = y) ∧
      replaceIndex t.is ((keys t.is).map lab) d.is ((keys d.is).map lab) =
        t.is.map fun i => if i.key = x.key then y else i := by
    have zl : t.is.zip ((keys t.is).map lab) = t.is.map fun i => (i, lab i.key) := by
      generalize t.is = X
      induction X with
      | nil => rfl
      | cons i X ih => simp only [keys, List.map_cons, List.zip_cons_cons] at ih ⊢; rw [ih]
    have hneg : ∀ i ∈ t.is, lab i.key < 0 ↔ i.key = a.key ∨ i.key = b.key := by
      intro i hi
      rw [(hl.sign i.key (Or.inr (kt i hi))).2]
      simp [hab, keys, kt i hi]
      intro _; exact ⟨i, hi, rfl⟩
    by_cases ha : lab a.key < 0
    · have hb : ¬ lab b.key < 0 := by
        intro hb; apply hsg; simp [ha, hb]
      have hbt : b.key ∉ keys t.is := fun h => hb (hsb.2.2 ⟨hkb, h⟩)
      refine ⟨a, b, (hsa.2.1 ha).2, hbt, hdim, by intro i; rw [hab]; simp, ?_⟩
      unfold replaceIndex
      rw [zl, List.map_map]
      apply List.map_congr_left
      intro i hi
      simp only [Function.comp, hab, keys, List.map_cons, List.headD_cons]
      have hib : i.key ≠ b.key := fun e => hbt (e ▸ kt i hi)
      by_cases hia : i.key = a.key
      · rw [if_pos ((hneg i hi).2 (Or.inl hia)), if_neg (by omega), if_pos hia]; rfl
      · rw [if_neg (fun h => ((hneg i hi).1 h).elim hia hib), if_neg hia]
    · have hb : lab b.key < 0 := by
        by_contra hb; apply hsg; simp [ha, hb]
      have hat : a.key ∉ keys t.is := fun h => ha (hsa.2.2 ⟨hka, h⟩)
      refine ⟨b, a, (hsb.2.1 hb).2, hat, hdim.symm, by intro i; rw [hab]; simp [or_comm], ?_⟩
      unfold replaceIndex
      rw [zl, List.map_map]
      apply List.map_congr_left
      intro i hi
      simp only [Function.comp, hab, keys, List.map_cons, List.headD_cons]
      have hia : i.key ≠ a.key := fun e => hat (e ▸ kt i hi)
      by_cases hib : i.key = b.key
      · rw [if_pos ((hneg i hi).2 (Or.inr hib)), if_pos (by omega), if_pos hib]; rfl
      · rw [if_neg (fun h => ((hneg i hi).1 h).elim hia hib), if_neg hib]
  have hxd : x ∈ d.is := (hmem x).2 (Or.inl rfl)
  have hyd : y ∈ d.is := (hmem y).2 (Or.inr rfl)
  have hkd : ∀ k, k ∈ keys d.is ↔ k = x.key ∨ k = y.key := by
    intro k
    simp only [keys, List.mem_map]
    constructor
    · rintro ⟨i, hi, rfl⟩
      rcases (hmem i).1 hi with rfl | rfl <;> simp
    · rintro (rfl | rfl)
      · exact ⟨x, hxd, rfl⟩
      · exact ⟨y, hyd, rfl⟩
  have hty : ∀ i ∈ t.is, i.key ≠ y.key := fun i hi e => hy (e ▸ kt i hi)
  have hdims : (t.is.map fun i => if i.key = x.key then y else i).map (·.dim) = t.is.map (·.dim) := by
    rw [List.map_map]
    apply List.map_congr_left
    intro i hi
    simp only [Function.comp]
    split
    · rename_i e
      rw [← hdxy, hd.is.dims x hxd, ht.is.dims i hi, e]
    · rfl
  have hlen : d.length = y.dim := by
    rcases hd.min with ⟨h, _⟩ | ⟨i, hi, e⟩
    · rw [h] at hxd; simp at hxd
    · rcases (hmem i).1 hi with rfl | rfl
      · rw [← e, hdxy]
      · exact e.symm
  refine ⟨_, hrep, ⟨?_, ?_, ?_, ?_⟩, by rw [hdims], fun k => ?_, fun σ hσ => ?_⟩
  · have : keys (t.is.map fun i => if i.key = x.key then y else i) = (keys t.is).map fun k => if k = x.key then y.key else k := by
      simp only [keys, List.map_map]
      apply List.map_congr_left
      intro i _
      simp only [Function.comp]
      split <;> rfl
    rw [this]
    refine ht.is.nodup.map_on ?_
    intro k hk k' hk' e
    split at e <;> split at e
    · rename_i h h'; rw [h, h']
    · exact absurd (e ▸ hk' : y.key ∈ keys t.is) hy
    · exact absurd (e ▸ hk : y.key ∈ keys t.is) hy
    · exact e
  · intro i hi
    obtain ⟨j, hj, rfl⟩ := List.mem_map.1 hi
    split
    · exact hd.is.dims y hyd
    · exact ht.is.dims j hj
  · intro i hi
    obtain ⟨j, hj, rfl⟩ := List.mem_map.1 hi
    split
    · exact hd.is.pos y hyd
    · exact ht.is.pos j hj
  · intro i hi
    obtain ⟨j, hj, rfl⟩ := List.mem_map.1 hi
    split
    · exact hd.is.noqn y hyd
    · exact ht.is.noqn j hj
  · constructor
    · intro hk
      obtain ⟨i, hi, rfl⟩ := List.mem_map.1 hk
      obtain ⟨j, hj, rfl⟩ := List.mem_map.1 hi
      split
      · exact Or.inr ⟨(hkd _).2 (Or.inr rfl), hy⟩
      · rename_i h
        exact Or.inl ⟨kt j hj, fun h' => ((hkd _).1 h').elim h (hty j hj)⟩
    · rintro (⟨h1, h2⟩ | ⟨h1, h2⟩)
      · obtain ⟨i, hi, rfl⟩ := List.mem_map.1 h1
        refine List.mem_map.2 ⟨i, List.mem_map.2 ⟨i, hi, ?_⟩, rfl⟩
        rw [if_neg fun e => h2 ((hkd _).2 (Or.inl e))]
      · rcases (hkd k).1 h1 with rfl | rfl
        · exact absurd hx h2
        · obtain ⟨i, hi, e⟩ := List.mem_map.1 hx
          exact List.mem_map.2 ⟨y, List.mem_map.2 ⟨i, hi, by rw [if_pos e]⟩, rfl⟩
  · have hyR : y ∈ t.is.map fun i => if i.key = x.key then y else i := by
      obtain ⟨i, hi, e⟩ := List.mem_map.1 hx
      exact List.mem_map.2 ⟨i, hi, by rw [if_pos e]⟩
    have hJ : σ y.key < d.length := by rw [hlen]; exact hσ y hyR
    have hpv : prodVal' d t.sem σ = t.sem.val fun k => if k ∈ keys d.is then σ y.key else σ k := by
      unfold prodVal'
      rw [sum_eq_single_of_mem (σ y.key) (mem_range.2 hJ), if_pos]
      · have : d.at' (σ y.key) = 1 := by unfold DG.at'; rw [if_pos hst, hv1]
        rw [this, one_mul]
      · intro k hk hkt
        rcases (hkd k).1 hk with rfl | rfl
        · exact absurd hx hkt
        · rfl
      · intro J' _ hne
        rw [if_neg]
        intro h
        exact hne (h y.key ((hkd _).2 (Or.inr rfl)) hy).symm
    have hvals : (t.is.map fun i => if i.key = x.key then y else i).map (fun i => σ i.key) =
        t.is.map fun i => if i.key ∈ keys d.is then σ y.key else σ i.key := by
      rw [List.map_map]
      apply List.map_congr_left
      intro i hi
      simp only [Function.comp]
      by_cases e : i.key = x.key
      · rw [if_pos e, if_pos ((hkd _).2 (Or.inl e))]
      · rw [if_neg e, if_neg fun h => ((hkd _).1 h).elim e (hty i hi)]
    have hlt := rank_lt (valid_dims hσ)
    rw [hdims] at hlt
    simp only [IT.getElt, DS.getElt]
    rw [hdims, if_pos (by rw [ht.size]; exact hlt), hpv, hvals]
    rfl

/-- Indices which are left of a diagonal tensor all of whose other indices are taken by the other operand: one of them
must be as long as the diagonal. -/
def DiagRest (d : DG K) (t : DS K) : Prop :=
  (∀ k ∈ keys t.is, k ∈ keys d.is) → (∃ k ∈ keys d.is, k ∉ keys t.is) → ∃ i ∈ d.is, i.key ∉ keys t.is ∧ i.dim = d.length

omit [DecidableEq K] in
theorem DG.sem_ok {ext : Key → Nat} {d : DG K} (h : d.OK ext) : d.sem.OK := by
  refine ⟨h.is.nodup, fun σ τ hst => ?_⟩
  simp only [sem]
  refine sum_congr rfl fun J _ => ?_
  have : (∀ k ∈ keys d.is, σ k = J) ↔ ∀ k ∈ keys d.is, τ k = J :=
    ⟨fun h k hk => by rw [← hst k hk]; exact h k hk, fun h k hk => by rw [hst k hk]; exact h k hk⟩
  simp only [this]

omit [DecidableEq K] in
theorem Holds.of {ext : Key → Nat} {N : IT K} {T : Ten Key K} (hT : T.inds.Nodup) (ok : N.OK ext) (okI : IsOK ext N.is)
    (hm : ∀ k, k ∈ keys N.is ↔ k ∈ T.inds)
    (h : ∀ σ : Key → Nat, (∀ i ∈ N.is, σ i.key < i.dim) → N.getElt (N.is.map fun i => σ i.key) = .ok (T.val σ)) : Holds ext N T := by
  refine ⟨ok, (List.perm_ext_iff_of_nodup okI.nodup hT).2 hm, fun σ hσ => h σ fun i hi => ?_⟩
  rw [okI.dims i hi]
  exact hσ _ ((hm _).1 (List.mem_map_of_mem hi))

theorem IT.OK.isOK {ext : Key → Nat} {N : IT K} (h : N.OK ext) : IsOK ext N.is := by
  cases N with
  | dense t => exact DS.OK.is h
  | diag d => exact DG.OK.is h

/-- Both orders of the operands at once. -/
theorem diag_product {ext : Key → Nat} {d : DG K} {t : DS K} (hd : d.OK ext) (ht : t.OK ext) (hrest : DiagRest d t)
    (fuel : Nat) (hf : (t.is.map (·.dim)).prod < fuel) {lab : Key → Int} (hl : LabOK lab d.is t.is) {T : Ten Key K} (hTn : T.inds.Nodup)
    (hTi : ∀ k, k ∈ T.inds ↔ (k ∈ keys t.is ∧ k ∉ keys d.is) ∨ (k ∈ keys d.is ∧ k ∉ keys t.is))
    (hTv : ∀ σ, T.val σ = prodVal' d t.sem σ) {Nis : IndexSet}
    (hN : Nis.Perm (t.is.filter (fun i => decide (i.key ∉ keys d.is)) ++ d.is.filter (fun i => decide (i.key ∉ keys t.is)))) :
    ∃ R, (if isReplaceDelta d ((keys d.is).map lab) = true then
        some (.ok (.dense { t with is := replaceIndex t.is ((keys t.is).map lab) d.is ((keys d.is).map lab) }))
      else contractDiagDense fuel d ((keys d.is).map lab) t ((keys t.is).map lab) (Nis.map fun i => (i, lab i.key))) = some (.ok R) ∧
      Holds ext R T := by
  by_cases hr : isReplaceDelta d ((keys d.is).map lab) = true
  · rw [if_pos hr]
    obtain ⟨R, h1, h2, h3, h4, h5⟩ := replace_ok hd ht hl hr
    rw [h1]
    exact ⟨_, rfl, Holds.of hTn ⟨h2, by rw [ht.size]; exact h3⟩ h2 (fun k => (h4 k).trans (hTi k).symm)
      fun σ hσ => (h5 σ hσ).trans (by rw [hTv])⟩
  · rw [if_neg hr]
    obtain ⟨R, h1, h2, h3, h4⟩ := contractDiagDense_ok hd ht hl hN hrest fuel hf
    refine ⟨R, h1, Holds.of hTn h3 h3.isOK (fun k => ?_) ?_⟩
    · rw [hTi, h2]
      simp only [keys, List.mem_map, hN.mem_iff, List.mem_append, List.mem_filter, decide_eq_true_eq]
      constructor
      · rintro ⟨i, h | h, rfl⟩
        · exact Or.inl ⟨⟨i, h.1, rfl⟩, h.2⟩
        · exact Or.inr ⟨⟨i, h.1, rfl⟩, h.2⟩
      · rintro (⟨⟨i, h, rfl⟩, h'⟩ | ⟨⟨i, h, rfl⟩, h'⟩)
        · exact ⟨i, Or.inl ⟨h, h'⟩, rfl⟩
        · exact ⟨i, Or.inr ⟨h, h'⟩, rfl⟩
    · rw [h2]; intro σ hσ; rw [h4 σ hσ, hTv]

/-- **C28, product.** `T*D` with `T` dense and `D` diagonal gives an ITensor which holds the product of `T` and the tensor that has the
diagonal elements of `D` and is zero elsewhere. Partial: when no index of `T` remains then one of the remaining indices of `D` must be as long as
the diagonal, see `C28_short_counterexample`. -/
theorem C28_dense_diag_partial {ext : Key → Nat} {d : DG K} {t : DS K} (hd : d.OK ext) (ht : t.OK ext) (hrest : DiagRest d t)
    (fuel : Nat) (hf : (t.is.map (·.dim)).prod < fuel) :
    ∃ R, mulDenseDiag fuel t d = some (.ok R) ∧ Holds ext R (mul ext t.sem d.sem) := by
  obtain ⟨lab, hA, hB, hinj, hs⟩ := exists_lab t.is d.is ht.is.nodup hd.is.nodup
  have hl : LabOK lab d.is t.is := ⟨fun k k' h h' e => hinj k k' h.symm h'.symm e, fun k h =>
    ⟨(hs k h.symm).1, (hs k h.symm).2.trans and_comm⟩⟩
  have hq : hasQNs t.is = hasQNs d.is := by rw [hasQNs_false ht.is.noqn, hasQNs_false hd.is.noqn]
  have hprod := prodInds_lab hq hA hB hs
  unfold prodInds at hprod
  unfold mulDenseDiag
  simp only [hprod]
  rw [hA, hB]
  exact diag_product hd ht hrest fuel hf hl (mul_ok ext (DS.sem_ok ht) (DG.sem_ok hd)).nodup
    (fun k => mul_mem ext) (fun σ => mul_diag_right hd (DS.sem_ok ht) σ) (List.Perm.refl _)

/-- **C28, product.** The same for `D*T`. -/
theorem C28_diag_dense_partial {ext : Key → Nat} {d : DG K} {t : DS K} (hd : d.OK ext) (ht : t.OK ext) (hrest : DiagRest d t)
    (fuel : Nat) (hf : (t.is.map (·.dim)).prod < fuel) :
    ∃ R, mulDiagDense fuel d t = some (.ok R) ∧ Holds ext R (mul ext d.sem t.sem) := by
  obtain ⟨lab, hA, hB, hinj, hs⟩ := exists_lab d.is t.is hd.is.nodup ht.is.nodup
  have hl : LabOK lab d.is t.is := ⟨hinj, hs⟩
  have hq : hasQNs d.is = hasQNs t.is := by rw [hasQNs_false ht.is.noqn, hasQNs_false hd.is.noqn]
  have hprod := prodInds_lab hq hA hB hs
  unfold prodInds at hprod
  unfold mulDiagDense
  simp only [hprod]
  rw [hA, hB]
  exact diag_product hd ht hrest fuel hf hl (mul_ok ext (DG.sem_ok hd) (DS.sem_ok ht)).nodup
    (fun k => (mul_mem ext).trans or_comm) (fun σ => mul_diag_left hd (DS.sem_ok ht) σ) List.perm_append_comm

/-! ## Reading and conversion -/

/-- **C28, elements.** Reading an element of a diagonal ITensor gives the stored value at equal positions and zero elsewhere. -/
theorem C28_elements {ext : Key → Nat} {d : DG K} (hd : d.OK ext) : Holds ext (.diag d) d.sem := by
  refine Holds.of hd.is.nodup hd hd.is (fun _ => Iff.rfl) fun σ hσ => ?_
  have hσ : ∀ i ∈ d.is, σ i.key < i.dim := hσ
  change d.getElt (d.is.map fun i => σ i.key) = _
  unfold DG.getElt
  rcases hd.min with ⟨h0, hl⟩ | ⟨i0, hi0, e0⟩
  · have hs : d.sem.val σ = d.at' 0 := by simp [DG.sem, h0, hl, keys]
    rw [hs, h0]
    simp only [List.map_nil, List.any_nil, Bool.false_eq_true, if_false, List.headD_nil, DG.at']
    rcases hd.store with h | h
    · simp [h]
    · rw [hl] at h
      obtain ⟨x, hx⟩ := List.length_eq_one_iff.1 h
      simp [hx]
  · by_cases hJ : ∃ J, ∀ i ∈ d.is, σ i.key = J
    · obtain ⟨J, hJ⟩ := hJ
      have hJl : J < d.length := by rw [← e0, ← hJ i0 hi0]; exact hσ i0 hi0
      have hhd : (d.is.map fun i => σ i.key).headD 0 = J := by
        cases hc : d.is with
        | nil => rw [hc] at hi0; simp at hi0
        | cons i X => rw [hc] at hJ; simpa using hJ i (by simp)
      have hs : d.sem.val σ = d.at' J := by
        simp only [DG.sem]
        rw [sum_eq_single_of_mem J (mem_range.2 hJl), if_pos]
        · intro k hk
          obtain ⟨i, hi, rfl⟩ := List.mem_map.1 hk
          exact hJ i hi
        · intro J' _ hne
          rw [if_neg]
          intro h
          exact hne (by rw [← h _ (List.mem_map_of_mem hi0), hJ i0 hi0])
      simp only [hhd]
      rw [if_neg, hs]
      · unfold DG.at'
        rcases hd.store with h | h
        · simp [h]
        · have : d.store.isEmpty = false := by
            rw [List.isEmpty_eq_false_iff]; intro h'; rw [h'] at h; simp at h; omega
          simp [this, h, hJl]
      · rw [Bool.not_eq_true, List.any_eq_false]
        intro x hx
        obtain ⟨i, hi, rfl⟩ := List.mem_map.1 hx
        simp [hJ i hi]
    · have hs : d.sem.val σ = 0 := by
        simp only [DG.sem]
        refine sum_eq_zero fun J _ => ?_
        rw [if_neg]
        intro h
        exact hJ ⟨J, fun i hi => h _ (List.mem_map_of_mem hi)⟩
      simp only
      rw [if_pos, hs]
      rw [List.any_eq_true]
      by_contra hc
      apply hJ
      refine ⟨(d.is.map fun i => σ i.key).headD 0, fun i hi => ?_⟩
      by_contra hne
      exact hc ⟨σ i.key, List.mem_map.2 ⟨i, hi, rfl⟩, by simpa using hne⟩

/-- **C28, conversion.** `toDense` gives the dense tensor with the stored value at equal positions and zero elsewhere; no access is out
of bounds. -/
theorem C28_toDense {ext : Key → Nat} {d : DG K} (hd : d.OK ext) : ∃ t, toDense d = .ok t ∧ Holds ext (.dense t) d.sem := by
  obtain ⟨S, hS, rD⟩ := exists_stride d.is hd.is.nodup
  have haddr : ∀ J : Nat, J * ((init (d.is.map (·.dim))).map (·.str)).sum = rank (d.is.map (·.dim)) (d.is.map fun _ => J) := by
    intro J
    rw [rD fun _ => J, sum_mul_const, hS, List.map_map]; rfl
  have hbd : ∀ J : Nat, J < d.length → ∀ i ∈ d.is, J < i.dim := fun J hJ i hi => lt_of_lt_of_le hJ (hd.le i hi)
  have hfold : ∀ n, n ≤ d.length → ∃ m : Int → K, Res.foldM (fun (m : Int → K) (i : Nat) =>
      if i * ((init (d.is.map (·.dim))).map (·.str)).sum < (d.is.map (·.dim)).prod then
        Res.ok (Function.update m ((i * ((init (d.is.map (·.dim))).map (·.str)).sum : Nat) : Int) (d.at' i)) else .ub) (fun _ => 0) (List.range n) = .ok m ∧
      ∀ σ : Key → Nat, (∀ i ∈ d.is, σ i.key < i.dim) → m (rank (d.is.map (·.dim)) (d.is.map fun i => σ i.key) : Nat) =
        ∑ J ∈ range n, if ∀ k ∈ keys d.is, σ k = J then d.at' J else 0 := by
    intro n
    induction n with
    | zero => intro _; exact ⟨_, rfl, fun σ _ => by simp⟩
    | succ n ih =>
      intro hn
      obtain ⟨m, hm, hv⟩ := ih (by omega)
      have hlt : n * ((init (d.is.map (·.dim))).map (·.str)).sum < (d.is.map (·.dim)).prod := by
        rw [haddr]
        exact rank_lt (valid_dims (f := fun _ => n) (hbd n (by omega)))
      refine ⟨Function.update m ((n * ((init (d.is.map (·.dim))).map (·.str)).sum : Nat) : Int) (d.at' n), ?_, fun σ hσ => ?_⟩
      · rw [List.range_succ, Res.foldM_append, hm]
        simp only [Res.bind, Res.foldM_cons, if_pos hlt, Res.foldM_nil]
      · rw [sum_range_succ]
        have hiff : rank (d.is.map (·.dim)) (d.is.map fun i => σ i.key) = rank (d.is.map (·.dim)) (d.is.map fun _ => n) ↔
            ∀ k ∈ keys d.is, σ k = n := by
          rw [rank_inj_dims hσ (g := fun _ => n) (hbd n (by omega))]
          constructor
          · intro h k hk
            obtain ⟨i, hi, rfl⟩ := List.mem_map.1 hk
            exact h i hi
          · exact fun h i hi => h _ (List.mem_map_of_mem hi)
        rw [haddr]
        by_cases hc : ∀ k ∈ keys d.is, σ k = n
        · rw [hiff.2 hc, Function.update_self, if_pos hc]
          have : ∑ J ∈ range n, (if ∀ k ∈ keys d.is, σ k = J then d.at' J else 0) = 0 := by
            refine sum_eq_zero fun J hJ => ?_
            rw [if_neg]
            intro h
            have hJ := mem_range.1 hJ
            rcases hd.min with ⟨_, hl⟩ | ⟨i, hi, _⟩
            · omega
            · have h1 := h _ (List.mem_map_of_mem hi)
              have h2 := hc _ (List.mem_map_of_mem hi)
              omega
          rw [this, zero_add]
        · rw [Function.update_of_ne (by
            intro h; exact hc (hiff.1 (by exact_mod_cast h))), if_neg hc, add_zero]
          exact hv σ hσ
  obtain ⟨m, hm, hv⟩ := hfold d.length (le_refl _)
  refine ⟨⟨d.is, (d.is.map (·.dim)).prod, m⟩, ?_, Holds.of hd.is.nodup ⟨hd.is, rfl⟩ hd.is (fun _ => Iff.rfl) fun σ hσ => ?_⟩
  · unfold toDense
    simp only
    rw [if_neg, hm]
    · rfl
    · rintro ⟨h1, h2⟩
      rcases hd.store with h | h
      · simp [h] at h1
      · omega
  · have hσ : ∀ i ∈ d.is, σ i.key < i.dim := hσ
    have h1 := rank_lt (valid_dims hσ)
    change (if _ then _ else _) = _
    exact (if_pos h1).trans (congrArg Res.ok (hv σ hσ))

/-- **C28.** The product with the diagonal tensor has the same elements as the dense product (`DTensor.mulEq`, C60) with the result of
`toDense`. Partial for the same reason as `C28_dense_diag_partial`. -/
theorem C28_as_dense_partial {ext : Key → Nat} {d : DG K} {t : DS K} (hd : d.OK ext) (ht : t.OK ext) (hrest : DiagRest d t)
    (hml : (((t.is.map (·.dim)).prod : Nat) : Int) ≤ offMax) (hmr : (((d.is.map (·.dim)).prod : Nat) : Int) ≤ offMax)
    (hmn : (((mul ext t.sem d.sem).inds.map ext).prod : Int) ≤ offMax) (fuel : Nat)
    (hfl : (t.is.map (·.dim)).prod < fuel) (hfr : (d.is.map (·.dim)).prod < fuel)
    (hfn : ((mul ext t.sem d.sem).inds.map ext).prod < fuel) (junk fresh : Int → K) :
    ∃ R D N, mulDenseDiag fuel t d = some (.ok R) ∧ toDense d = .ok D ∧
      DTensor.mulEq fuel junk fresh ⟨t.is, t.mem⟩ ⟨D.is, D.mem⟩ = some (.ok N) ∧ (keys R.is).Perm (keys N.is) ∧
      ∀ σ : Key → Nat, (∀ k ∈ keys N.is, σ k < ext k) →
        R.getElt (R.is.map fun i => σ i.key) = .ok (N.store (rank (N.is.map (·.dim)) (N.is.map fun i => σ i.key) : Nat)) := by
  obtain ⟨R, hR, hH⟩ := C28_dense_diag_partial hd ht hrest fuel hfl
  obtain ⟨D, hD, hHD⟩ := C28_toDense hd
  have hDis : D.is = d.is := by
    unfold toDense at hD
    simp only at hD
    split at hD
    · cases hD
    · revert hD
      generalize Res.foldM _ _ _ = X
      cases X <;> simp [Res.map]
      rintro rfl; rfl
  have okT : (⟨t.is, t.mem⟩ : DTensor K).OK ext := ⟨ht.is.nodup, ht.is.dims, ht.is.pos, ht.is.noqn⟩
  have okD : (⟨D.is, D.mem⟩ : DTensor K).OK ext := by rw [hDis]; exact ⟨hd.is.nodup, hd.is.dims, hd.is.pos, hd.is.noqn⟩
  have sT : (⟨t.is, t.mem⟩ : DTensor K).sem = t.sem := rfl
  have sD : Same ext (⟨D.is, D.mem⟩ : DTensor K).sem d.sem := by
    refine ⟨by change keys D.is = keys d.is; rw [hDis], fun σ hσ => ?_⟩
    have hσ' : ∀ k ∈ d.sem.inds, σ k < ext k := by
      intro k hk
      apply hσ
      change k ∈ keys D.is
      rw [hDis]; exact hk
    have h1 := hHD.elt σ hσ'
    change (if _ then _ else _) = _ at h1
    split at h1
    · exact Res.ok.inj h1
    · cases h1
  have sM : Same ext (mul ext (⟨t.is, t.mem⟩ : DTensor K).sem (⟨D.is, D.mem⟩ : DTensor K).sem) (mul ext t.sem d.sem) :=
    Same.mul ⟨rfl, fun _ _ => rfl⟩ sD
  obtain ⟨N, hN, okN, sN, _⟩ := C60_product okT okD hml (by change (((D.is.map (·.dim)).prod : Nat) : Int) ≤ _; rw [hDis]; exact hmr)
    (by rw [sM.1]; exact hmn) fuel hfl (by change (D.is.map (·.dim)).prod < _; rw [hDis]; exact hfr) (by rw [sM.1]; exact hfn) junk fresh
  have hk : keys N.is = (mul ext t.sem d.sem).inds := sN.1.trans sM.1
  refine ⟨R, D, N, hR, hD, hN, by rw [hk]; exact hH.inds, fun σ hσ => ?_⟩
  rw [hH.elt σ (fun k hk' => hσ k (by rw [hk]; exact hk'))]
  congr 1
  have h1 := sN.2 σ (fun k hk' => hσ k hk')
  have h2 := sM.2 σ (fun k hk' => hσ k (by rw [hk, ← sM.1]; exact hk'))
  exact (h1.trans h2).symm

/-! ## Cases -/

namespace DiagEx

def ix (id dim : Nat) : Index := ⟨id, dim, 1, Verif.TagSet.TagSet.default, []⟩

/-- The indices of a result, and its element at the given position. -/
def run1 : Run (IT Int) → List Nat → Option (Res (List Nat × Int))
  | some (.ok R), i => some ((R.getElt i).map fun x => (R.is.map (·.id), x))
  | some .throw, _ => some .throw
  | some .ub, _ => some .ub
  | none, _ => none

def l : Index := ix 1 2
def s : Index := ix 2 3
def s' : Index := ix 3 3
def r : Index := ix 4 2
def one : Index := ix 5 1

/-- `T(l,s)`, element `(i,j)` is `1+i+2j`. -/
def T : DS Int := ⟨[l, s], 6, fun a => a + 1⟩
/-- a vector -/
def v : DS Int := ⟨[l], 2, fun a => a + 5⟩

/-- A rectangular delta acting on `s` (dimension 3) with result of dimension 2: the first two columns. -/
example : run1 (mulDenseDiag 10 T ⟨[s, r], [], 1, 2⟩) [1, 1] = some (.ok ([1, 4], 4)) := by decide +kernel
/-- All indices contracted: a trace-like sum `10*T(0,0) + 20*T(1,1)`. -/
example : run1 (mulDiagDense 10 ⟨[s, l], [10, 20], 0, 2⟩ T) [] = some (.ok ([], 90)) := by decide +kernel
/-- Replacing an index. -/
example : run1 (mulDiagDense 10 ⟨[r, l], [], 1, 2⟩ T) [1, 2] = some (.ok ([4, 2], 6)) := by decide +kernel
/-- A vector put on the diagonal of a matrix. -/
example : run1 (mulDenseDiag 10 v ⟨[r, l, s], [], 3, 2⟩) [1, 1] = some (.ok ([4, 2], 18)) ∧
    run1 (mulDenseDiag 10 v ⟨[r, l, s], [], 3, 2⟩) [1, 2] = some (.ok ([4, 2], 0)) := by constructor <;> decide +kernel
example : (toDense (K := Int) ⟨[s, r, s'], [7, 9], 0, 2⟩).map (fun t => ((List.range t.size).map fun (a : Nat) => t.mem a, t.size)) =
    .ok ([7, 0, 0, 0, 0, 0, 0, 0, 0, 0, 9, 0, 0, 0, 0, 0, 0, 0], 18) := by decide +kernel

def ext : Key → Nat := fun k => if k = l.key ∨ k = r.key then 2 else 3

/-- The hypotheses of the theorems are met. -/
example : (⟨[r, l, s], [], 3, 2⟩ : DG Int).OK ext ∧ v.OK ext ∧ DiagRest (⟨[r, l, s], [], 3, 2⟩ : DG Int) v := by
  refine ⟨⟨⟨by decide +kernel, by decide +kernel, by decide, by decide⟩, by decide, Or.inr ⟨l, by decide, rfl⟩, Or.inl rfl⟩,
    ⟨⟨by decide +kernel, by decide +kernel, by decide, by decide⟩, rfl⟩, fun _ _ => ⟨r, by decide, by decide +kernel, rfl⟩⟩

end DiagEx

open DiagEx in
/-- `v*delta(l,s)` with an index `s` longer than `l`: the result has an index of dimension 3 and storage for two elements; reading
the last element is out of bounds, although the product is 0 there. With more indices left the storage is diagonal, and reading
`(2,2)` throws, or gives the value at `(0,0)` when the diagonal has length 1. -/
theorem C28_short_counterexample :
    (∃ d : DG Int, d.OK ext ∧ v.OK ext ∧ (mul ext v.sem d.sem).inds = [s.key] ∧ (∀ σ : Key → Nat, σ s.key = 2 → (mul ext v.sem d.sem).val σ = 0) ∧
      run1 (mulDenseDiag 10 v d) [2] = some .ub) ∧
    run1 (mulDenseDiag 10 v ⟨[l, s, s'], [], 1, 2⟩) [2, 2] = some .throw ∧
    run1 (mulDenseDiag 10 ⟨[one], 1, fun _ => 5⟩ ⟨[one, s, s'], [], 1, 1⟩) [2, 2] = some (.ok ([2, 3], 5)) := by
  have hd : (⟨[l, s], [], 1, 2⟩ : DG Int).OK ext :=
    ⟨⟨by decide +kernel, by decide +kernel, by decide, by decide⟩, by decide, Or.inr ⟨l, by decide, rfl⟩, Or.inl rfl⟩
  have hv : v.OK ext := ⟨⟨by decide +kernel, by decide +kernel, by decide, by decide⟩, rfl⟩
  refine ⟨⟨⟨[l, s], [], 1, 2⟩, hd, hv, by decide +kernel, fun σ hσ => ?_, by decide +kernel⟩, by decide +kernel, by decide +kernel⟩
  rw [mul_diag_right hd (DS.sem_ok hv)]
  refine prodVal'_off ?_
  rintro ⟨J, hJ, h⟩
  have := h s.key (by decide +kernel) (by decide +kernel)
  rw [hσ] at this
  change J < 2 at hJ
  omega

end Verif.Net
