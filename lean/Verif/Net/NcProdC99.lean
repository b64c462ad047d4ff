import Verif.Net.NcProd
import Verif.Net.Add
import Verif.Net.DirectSumC98
import Verif.QDense.NcProd
import Verif.QDense.ContractProps

/-! # C99: the product without contraction -/

namespace Verif.Net

open Verif.Tensor Verif.Tensor.Range Verif.Index Verif.Index.IndexSet Finset

variable {K : Type*} [CommRing K]

/-! ## The pointers -/

theorem wire_length (al : List Int) : ∀ (cl : List Int) (nc : Nat) (p : List (Option Nat)), (wire al cl nc p).length = p.length
  | [], _, _ => rfl
  | c :: cl, nc, p => by
    rw [wire, wire_length, setPtr]
    split <;> simp

theorem wire_get {al : List Int} (ha : al.Nodup) : ∀ (cl : List Int) (nc : Nat) (p : List (Option Nat)), cl.Nodup → p.length = al.length → ∀ (n : Nat) (hn : n < al.length),
    (wire al cl nc p)[n]? = if al[n] ∈ cl then some (some (nc + cl.idxOf al[n])) else p[n]?
  | [], _, _, _, _, _, _ => by simp [wire]
  | c :: cl, nc, p, hc, hp, n, hn => by
    obtain ⟨h1, h2⟩ := List.nodup_cons.1 hc
    rw [wire, wire_get ha cl (nc + 1) _ h2 (by unfold setPtr; split <;> simp [hp]) n hn]
    by_cases e : al[n] = c
    · have hf : al.findIdx? (· == c) = some n := by
        rw [List.findIdx?_eq_some_iff_getElem]
        refine ⟨hn, by simp [e], fun j hj => ?_⟩
        have : al[j] ≠ al[n] := fun h => by
          have := (List.Nodup.getElem_inj_iff ha).1 h
          omega
        simpa [e] using this
      rw [if_neg (by rw [e]; exact h1), setPtr, hf, if_pos (by simp [e])]
      simp [e, hp, hn]
    · have hset : (setPtr al c nc p)[n]? = p[n]? := by
        unfold setPtr
        split
        · rename_i na hf
          obtain ⟨h, h', -⟩ := List.findIdx?_eq_some_iff_getElem.1 hf
          have : na ≠ n := by
            rintro rfl
            exact e (by simpa using h')
          rw [List.getElem?_set_ne this]
        · rfl
      rw [hset]
      by_cases h : al[n] ∈ cl
      · rw [if_pos h, if_pos (by simp [h]), List.idxOf_cons_ne _ (fun h => e h.symm)]
        congr 2
        omega
      · rw [if_neg h, if_neg (by simp [h, e])]

theorem wire_eq {al cl : List Int} (ha : al.Nodup) (hc : cl.Nodup) (h : ∀ a ∈ al, a ∈ cl) :
    wire al cl 0 (List.replicate al.length none) = al.map fun a => some (cl.idxOf a) := by
  apply List.ext_getElem?
  intro n
  by_cases hn : n < al.length
  · rw [wire_get ha cl 0 _ hc (by simp) n hn, if_pos (h _ (List.getElem_mem _))]
    simp [hn]
  · rw [List.getElem?_eq_none (by rw [wire_length]; simpa using hn), List.getElem?_eq_none (by simpa using hn)]

theorem deref_eq {α : Type*} (ind : List Nat) (f : α → Nat) (g : α → Nat) : ∀ (l : List α), (∀ a ∈ l, ind[f a]? = some (g a)) →
    deref ind (l.map fun a => some (f a)) = .ok (l.map g)
  | [], _ => rfl
  | a :: l, h => by
    rw [List.map_cons, deref, h a (by simp)]
    simp only
    rw [deref_eq ind f g l fun x hx => h x (by simp [hx])]
    rfl

theorem idxOf_lab {lab : Key → Int} {S : List Key} (hinj : ∀ k ∈ S, ∀ k' ∈ S, lab k = lab k' → k = k') {σ : Key → Nat} {k : Key} (hk : k ∈ S) :
    (S.map σ)[(S.map lab).idxOf (lab k)]? = some (σ k) := by
  have h1 : (S.map lab).idxOf (lab k) < (S.map lab).length := List.idxOf_lt_length_of_mem (List.mem_map_of_mem hk)
  have h2 : (S.map lab)[(S.map lab).idxOf (lab k)] = lab k := List.getElem_idxOf h1
  have h3 : (S.map lab).idxOf (lab k) < S.length := by simpa using h1
  rw [List.getElem?_map, List.getElem?_eq_getElem h3]
  simp only [List.getElem_map] at h2
  rw [hinj _ (List.getElem_mem _) _ hk h2]
  rfl

/-- What is read through the pointers when the counter of `C` has the values `σ`. -/
theorem readAt_eq {ext : Key → Nat} {t : DS K} (ht : t.OK ext) {lab : Key → Int} {S : List Key} (hS : S.Nodup) (hsub : ∀ k ∈ keys t.is, k ∈ S)
    (hinj : ∀ k ∈ S, ∀ k' ∈ S, lab k = lab k' → k = k') {σ : Key → Nat} (hσ : ∀ k ∈ S, σ k < ext k) :
    readAt (init (t.is.map (·.dim))) t.size t.mem (wire ((keys t.is).map lab) (S.map lab) 0 (List.replicate ((keys t.is).map lab).length none)) (S.map σ) =
      .ok (t.sem.val σ) := by
  have n1 : ((keys t.is).map lab).Nodup := List.Nodup.map_on (fun a ha b hb e => hinj a (hsub a ha) b (hsub b hb) e) ht.is.nodup
  have n2 : (S.map lab).Nodup := List.Nodup.map_on (fun a ha b hb e => hinj a ha b hb e) hS
  have hv : Valid (t.is.map (·.dim)) (t.is.map fun i => σ i.key) := valid_dims fun i hi => by
    rw [ht.is.dims i hi]
    exact hσ _ (hsub _ (List.mem_map_of_mem hi))
  unfold readAt
  rw [wire_eq n1 n2 (by
    intro a ha
    obtain ⟨k, hk, rfl⟩ := List.mem_map.1 ha
    exact List.mem_map_of_mem (hsub k hk)), List.map_map]
  have e := deref_eq (S.map σ) (fun k : Key => (S.map lab).idxOf (lab k)) σ (keys t.is) fun k hk => idxOf_lab hinj (hsub k hk)
  simp only [Function.comp_def]
  rw [e]
  simp only [Res.bind_ok]
  rw [show (keys t.is).map σ = t.is.map fun i => σ i.key by simp [keys], offset_zero_eq _ _ (by have := congrArg List.length (extents_initFrom 1 (t.is.map (·.dim))); simp only [Range.extents, List.length_map] at this; simp [init, this]), addr_init (by simp)]
  simp only [Res.bind_ok]
  rw [if_pos ⟨by positivity, by rw [ht.size]; exact_mod_cast rank_lt hv⟩]
  rfl

/-! ## The loop -/

theorem ncLoop_ok {Ra Rb : Range} {nA nB nC : Nat} {A B : Int → K} {pa pb : List (Option Nat)} {f : RIter → K} : ∀ (l : List RIter) (m : Int → K),
    (∀ s ∈ l, ∃ a b, readAt Ra nA A pa s.ind = .ok a ∧ readAt Rb nB B pb s.ind = .ok b ∧ f s = a * b ∧ 0 ≤ s.off ∧ s.off < nC) → (l.map (·.off)).Nodup →
    ∃ m', ncLoop Ra nA A pa Rb nB B pb nC l m = .ok m' ∧ (∀ s ∈ l, m' s.off = f s) ∧ ∀ x, x ∉ l.map (·.off) → m' x = m x
  | [], m, _, _ => ⟨m, rfl, by simp, by simp⟩
  | s :: l, m, h, hn => by
    obtain ⟨a, b, ha, hb, hf, h0, h1⟩ := h s (by simp)
    obtain ⟨hn1, hn2⟩ := List.nodup_cons.1 hn
    obtain ⟨m', e1, e2, e3⟩ := ncLoop_ok l (Function.update m s.off (a * b)) (fun x hx => h x (by simp [hx])) hn2
    refine ⟨m', ?_, ?_, ?_⟩
    · rw [ncLoop, ha, hb]
      simp only [Res.bind_ok]
      rw [if_pos ⟨h0, h1⟩, e1]
    · intro x hx
      rcases List.mem_cons.1 hx with rfl | hx
      · rw [e3 _ hn1, Function.update_self, hf]
      · exact e2 x hx
    · intro x hx
      simp only [List.map_cons, List.mem_cons, not_or] at hx
      rw [e3 x hx.2, Function.update_of_ne hx.1]

/-! ## The indices -/

theorem zip_keys_lab (lab : Key → Int) (L : IndexSet) : L.zip ((keys L).map lab) = L.map fun i => (i, lab i.key) := by
  induction L with
  | nil => rfl
  | cons i L ih => simpa [keys] using ih

/-- The indices of `L/R`. -/
def ncInds (L R : IndexSet) : IndexSet :=
  L.filter (fun i => i.key ∈ keys R) ++ L.filter (fun i => i.key ∉ keys R) ++ R.filter fun i => i.key ∉ keys L

theorem ncInds_mem {L R : IndexSet} {k : Key} : k ∈ keys (ncInds L R) ↔ k ∈ keys L ∨ k ∈ keys R := by
  simp only [ncInds, keys, List.map_append, List.mem_append, List.mem_map, List.mem_filter, decide_eq_true_eq]
  constructor
  · rintro ((⟨i, hi, rfl⟩ | ⟨i, hi, rfl⟩) | ⟨i, hi, rfl⟩)
    · exact .inl ⟨i, hi.1, rfl⟩
    · exact .inl ⟨i, hi.1, rfl⟩
    · exact .inr ⟨i, hi.1, rfl⟩
  · rintro (⟨i, hi, rfl⟩ | ⟨i, hi, rfl⟩)
    · by_cases h : ∃ a ∈ R, a.key = i.key
      · exact .inl (.inl ⟨i, ⟨hi, h⟩, rfl⟩)
      · exact .inl (.inr ⟨i, ⟨hi, h⟩, rfl⟩)
    · by_cases h : ∃ a ∈ L, a.key = i.key
      · obtain ⟨a, ha, e⟩ := h
        exact .inl (.inl ⟨a, ⟨ha, i, hi, e.symm⟩, e⟩)
      · exact .inr ⟨i, ⟨hi, h⟩, rfl⟩

theorem ncInds_sub {L R : IndexSet} {i : Index} (h : i ∈ ncInds L R) : i ∈ L ∨ i ∈ R := by
  simp only [ncInds, List.mem_append, List.mem_filter] at h
  tauto

theorem ncInds_nodup {L R : IndexSet} (hL : (keys L).Nodup) (hR : (keys R).Nodup) : (keys (ncInds L R)).Nodup := by
  have hp : ((L.filter fun i => i.key ∈ keys R) ++ L.filter fun i => i.key ∉ keys R).Perm L := by
    have := List.filter_append_perm (fun i : Index => decide (i.key ∈ keys R)) L
    simpa using this
  have h1 : (keys ((L.filter fun i => i.key ∈ keys R) ++ L.filter fun i => i.key ∉ keys R)).Nodup := ((hp.map _).nodup_iff).2 hL
  unfold ncInds
  simp only [keys, List.map_append] at h1 ⊢
  refine List.Nodup.append h1 (List.Nodup.sublist (List.filter_sublist.map _) hR) ?_
  intro k hk hk'
  obtain ⟨i, hi, rfl⟩ := List.mem_map.1 hk'
  have h2 := of_decide_eq_true (List.mem_filter.1 hi).2
  apply h2
  simp only [List.mem_append, List.mem_map, List.mem_filter] at hk
  rcases hk with ⟨j, hj, e⟩ | ⟨j, hj, e⟩
  · exact e ▸ List.mem_map_of_mem hj.1
  · exact e ▸ List.mem_map_of_mem hj.1

theorem ncIS_eq {L R : IndexSet} {lab : Key → Int} (hs : ∀ k, (k ∈ keys L ∨ k ∈ keys R) → lab k ≠ 0 ∧ (lab k < 0 ↔ k ∈ keys L ∧ k ∈ keys R)) :
    ncIS L R ((keys L).map lab) ((keys R).map lab) = (ncInds L R).map fun i => (i, lab i.key) := by
  simp only [ncIS, zip_keys_lab, ncInds, List.map_append, List.filter_map]
  congr 1
  · congr 1
    · congr 1
      refine List.filter_congr fun i hi => ?_
      have hk : i.key ∈ keys L := List.mem_map_of_mem hi
      have h := (hs _ (.inl hk)).2
      simp only [Function.comp]
      exact decide_eq_decide.2 ⟨fun x => (h.1 x).2, fun x => h.2 ⟨hk, x⟩⟩
    · congr 1
      refine List.filter_congr fun i hi => ?_
      have hk : i.key ∈ keys L := List.mem_map_of_mem hi
      obtain ⟨h0, h⟩ := hs _ (.inl hk)
      simp only [Function.comp]
      refine decide_eq_decide.2 ⟨fun x y => ?_, fun x => ?_⟩
      · have := h.2 ⟨hk, y⟩
        omega
      · have : ¬ lab i.key < 0 := fun y => x (h.1 y).2
        omega
  · congr 1
    refine List.filter_congr fun i hi => ?_
    have hk : i.key ∈ keys R := List.mem_map_of_mem hi
    obtain ⟨h0, h⟩ := hs _ (.inr hk)
    simp only [Function.comp]
    refine decide_eq_decide.2 ⟨fun x y => ?_, fun x => ?_⟩
    · have := h.2 ⟨y, hk⟩
      omega
    · have : ¬ lab i.key < 0 := fun y => x (h.1 y).1
      omega

/-! ## The property -/

/-- **C99.** `A/B` for dense tensors: the result has the common indices of `A` and `B`, then the other ones of `A`, then those of `B`, and its elements are the products of the elements of `A` and
`B` for the same values of the indices; nothing is read or written outside the storages. Missing: two tensors without indices, see `C99_scalar_counterexample`, diagonal tensors, see
`C99_diag_counterexample`, and quantum numbers, see `C99_qn_counterexample`. -/
theorem C99_ncprod_partial {ext : Key → Nat} {L R : DS K} (hL : L.OK ext) (hR : R.OK ext) (hne : L.is ≠ [] ∨ R.is ≠ []) (fuel : Nat)
    (hmax : ((((ncInds L.is R.is).map (·.dim)).prod : Nat) : Int) ≤ offMax) (hf : ((ncInds L.is R.is).map (·.dim)).prod < fuel) :
    ∃ N, divEq fuel (some (.dense L)) (some (.dense R)) = some (.ok (.dense N)) ∧ N.is = ncInds L.is R.is ∧
      Holds ext (.dense N) ⟨keys (ncInds L.is R.is), fun σ => L.sem.val σ * R.sem.val σ⟩ := by
  obtain ⟨lab, hA, hB, hinj, hs⟩ := exists_lab L.is R.is hL.is.nodup hR.is.nodup
  set Nis := ncInds L.is R.is with hN
  set ds := Nis.map (·.dim) with hds
  have hokN : IsOK ext Nis := by
    refine ⟨ncInds_nodup hL.is.nodup hR.is.nodup, fun i hi => ?_, fun i hi => ?_, fun i hi => ?_⟩
    all_goals rcases ncInds_sub hi with h | h
    · exact hL.is.dims i h
    · exact hR.is.dims i h
    · exact hL.is.pos i h
    · exact hR.is.pos i h
    · exact hL.is.noqn i h
    · exact hR.is.noqn i h
  have hNne : Nis ≠ [] := by
    intro h
    rcases hne with h' | h'
    · obtain ⟨i, L', e⟩ := List.exists_cons_of_ne_nil h'
      have : i.key ∈ keys Nis := ncInds_mem.2 (.inl (by rw [e]; simp [keys]))
      simp [h, keys] at this
    · obtain ⟨i, L', e⟩ := List.exists_cons_of_ne_nil h'
      have : i.key ∈ keys Nis := ncInds_mem.2 (.inr (by rw [e]; simp [keys]))
      simp [h, keys] at this
  have hext : (init ds).extents = ds := extents_initFrom 1 ds
  have hinit : init ds ≠ [] := by
    intro h
    rw [h] at hext
    simp only [Range.extents, List.map_nil] at hext
    exact hNne (List.map_eq_nil_iff.1 hext.symm)
  have hpos : ∀ d ∈ ds, 0 < d := by
    intro d hd
    obtain ⟨i, hi, rfl⟩ := List.mem_map.1 hd
    exact hokN.pos i hi
  have hprod : 1 ≤ ds.prod := List.one_le_prod hpos
  have hfe : RIter.forEach 0 (init ds) fuel (RIter.begin 0 (init ds)) = some (.ok ((List.range' 0 ds.prod).map (RIter.stateAt 0 (init ds)))) := by
    rw [RIter.begin_eq]
    refine RIter.forEach_spec 0 _ hinit (by rw [hext]; exact hpos) (fun i hi => ?_) _ 0 fuel (by rw [hext]; omega) hprod hf
    rw [hext] at hi
    rw [addr_init (valid_length hi)]
    have := rank_lt hi
    omega
  have hst : ∀ k, k < ds.prod → RIter.stateAt 0 (init ds) k = ⟨k, unrank ds k⟩ := by
    intro k hk
    have hv := unrank_valid hk
    unfold RIter.stateAt
    rw [hext, addr_init (valid_length hv), rank_unrank hk]
    simp
  have hinj' : ∀ k ∈ keys Nis, ∀ k' ∈ keys Nis, lab k = lab k' → k = k' := fun k hk k' hk' => hinj k k' (ncInds_mem.1 hk) (ncInds_mem.1 hk')
  -- the values of the counter
  have hσ : ∀ k, k < ds.prod → ∃ σ : Key → Nat, unrank ds k = (keys Nis).map σ ∧ (∀ x ∈ keys Nis, σ x < ext x) := by
    intro k hk
    have hv := unrank_valid hk
    have hl : (unrank ds k).length = (keys Nis).length := by
      rw [valid_length hv]
      simp [hds, keys]
    have e : unrank ds k = (keys Nis).map fun x => (unrank ds k).getD ((keys Nis).idxOf x) 0 := by
      apply List.ext_getElem (by simp [hl])
      intro n h1 h2
      have h3 : n < (keys Nis).length := by omega
      rw [List.getElem_map, hokN.nodup.idxOf_getElem n h3, List.getD_eq_getElem?_getD, List.getElem?_eq_getElem h1]
      rfl
    refine ⟨_, e, ?_⟩
    have hv' : Valid (Nis.map (·.dim)) (Nis.map fun i => (unrank ds k).getD ((keys Nis).idxOf i.key) 0) := by
      rw [show (Nis.map fun i => (unrank ds k).getD ((keys Nis).idxOf i.key) 0) = (keys Nis).map fun x => (unrank ds k).getD ((keys Nis).idxOf x) 0 by simp [keys], ← e]
      exact hv
    intro x hx
    obtain ⟨i, hi, rfl⟩ := List.mem_map.1 hx
    rw [← hokN.dims i hi]
    have := List.forall₂_map_left_iff.1 (List.forall₂_map_right_iff.1 hv')
    exact (List.forall₂_same.1 this) i hi
  let f : RIter → K := fun s => L.sem.val (fun x => s.ind.getD ((keys Nis).idxOf x) 0) * R.sem.val fun x => s.ind.getD ((keys Nis).idxOf x) 0
  obtain ⟨m, m1, m2, -⟩ := ncLoop_ok (Ra := init (L.is.map (·.dim))) (Rb := init (R.is.map (·.dim))) (nA := L.size) (nB := R.size) (nC := ds.prod) (A := L.mem) (B := R.mem)
    (pa := wire ((keys L.is).map lab) ((keys Nis).map lab) 0 (List.replicate ((keys L.is).map lab).length none))
    (pb := wire ((keys R.is).map lab) ((keys Nis).map lab) 0 (List.replicate ((keys R.is).map lab).length none)) (f := f)
    ((List.range' 0 ds.prod).map (RIter.stateAt 0 (init ds))) (fun _ => 0) (by
      intro s hs'
      obtain ⟨k, hk, rfl⟩ := List.mem_map.1 hs'
      have hk' : k < ds.prod := by simpa using hk
      rw [hst k hk']
      obtain ⟨σ, e, hb⟩ := hσ k hk'
      have hval : ∀ x ∈ keys Nis, (unrank ds k).getD ((keys Nis).idxOf x) 0 = σ x := by
        intro x hx
        rw [e, List.getD_eq_getElem?_getD]
        have := idxOf_lab (lab := lab) hinj' (σ := σ) hx
        have h1 : (keys Nis).idxOf x < (keys Nis).length := List.idxOf_lt_length_of_mem hx
        rw [List.getElem?_map, List.getElem?_eq_getElem h1, List.getElem_idxOf h1]
        rfl
      refine ⟨_, _, ?_, ?_, rfl, by simp, Int.ofNat_lt.2 hk'⟩
      · simp only
        rw [e, readAt_eq hL hokN.nodup (fun x hx => ncInds_mem.2 (.inl hx)) hinj' hb]
        refine congrArg Res.ok ((DS.sem_ok hL).dep _ _ fun x hx => ?_)
        rw [← e]
        exact (hval x (ncInds_mem.2 (.inl hx))).symm
      · simp only
        rw [e, readAt_eq hR hokN.nodup (fun x hx => ncInds_mem.2 (.inr hx)) hinj' hb]
        refine congrArg Res.ok ((DS.sem_ok hR).dep _ _ fun x hx => ?_)
        rw [← e]
        exact (hval x (ncInds_mem.2 (.inr hx))).symm) (by
      rw [List.map_map]
      have e : (List.range' 0 ds.prod).map ((·.off) ∘ RIter.stateAt 0 (init ds)) = (List.range' 0 ds.prod).map fun k : Nat => (k : Int) := by
        refine List.map_congr_left fun k hk => ?_
        simp only [Function.comp]
        rw [hst k (by simpa using hk)]
      rw [e]
      exact List.Nodup.map (fun a b h => by exact_mod_cast h) (List.nodup_range'))
  refine ⟨⟨Nis, ds.prod, m⟩, ?_, rfl, ?_⟩
  · have hnc : ncIS L.is R.is (computeLabels L.is R.is).1 (computeLabels L.is R.is).2.1 = Nis.map fun i => (i, lab i.key) := by
      rw [hA, hB]
      exact ncIS_eq hs
    rw [hA, hB] at hnc
    have e1 : (Nis.map fun i => (i, lab i.key)).map (·.1) = Nis := by rw [List.map_map]; exact List.map_id _
    have e2 : (Nis.map fun i => (i, lab i.key)).map (·.2) = (keys Nis).map lab := by simp [keys]
    unfold divEq ncDense ncprodImpl
    simp only [hA, hB, hnc, e1, e2]
    rw [← hds, hfe]
    simp only [Run.bind]
    rw [m1]
  · have hok : (⟨Nis, ds.prod, m⟩ : DS K).OK ext := ⟨hokN, rfl⟩
    refine Holds.of hokN.nodup hok hokN (fun _ => Iff.rfl) fun σ hb => ?_
    refine (dense_elt hok hb).trans ?_
    have hv : Valid ds (Nis.map fun i => σ i.key) := valid_dims hb
    have hk : rank ds (Nis.map fun i => σ i.key) < ds.prod := rank_lt hv
    have h2 := m2 (RIter.stateAt 0 (init ds) (rank ds (Nis.map fun i => σ i.key))) (List.mem_map_of_mem (by simpa using hk))
    rw [hst _ hk] at h2
    simp only [f, unrank_rank hv] at h2
    refine congrArg Res.ok (h2.trans ?_)
    have hval : ∀ x ∈ keys Nis, (Nis.map fun i => σ i.key).getD ((keys Nis).idxOf x) 0 = σ x := by
      intro x hx
      have h1 : (keys Nis).idxOf x < (keys Nis).length := List.idxOf_lt_length_of_mem hx
      rw [show (Nis.map fun i => σ i.key) = (keys Nis).map σ by simp [keys], List.getD_eq_getElem?_getD, List.getElem?_map, List.getElem?_eq_getElem h1, List.getElem_idxOf h1]
      rfl
    congr 1
    · exact (DS.sem_ok hL).dep _ _ fun x hx => hval x (ncInds_mem.2 (.inl hx))
    · exact (DS.sem_ok hR).dep _ _ fun x hx => hval x (ncInds_mem.2 (.inr hx))

/-! ## Cases -/

namespace NcProdEx

open DirectSumEx (i j s ext okIs)

/-- `A(i,s)` and `B(s,j)`. -/
def A : DS Int := ⟨[i, s], 4, fun a => 1 + a⟩
def B : DS Int := ⟨[s, j], 6, fun a => 10 + a⟩

/-- The indices, and the elements stored. -/
def cells : Run (IT Int) → Option (Res (List Nat × List Int))
  | some (.ok (.dense t)) => some (.ok (t.is.map (·.id), (List.range t.size).map fun (a : Nat) => t.mem a))
  | some (.ok (.diag t)) => some (.ok (t.is.map (·.id), t.store))
  | some .throw => some .throw
  | some .ub => some .ub
  | none => none

/-- `C(s,i,j) = A(i,s) B(s,j)`, the product of the elements, and the outer product. -/
example : cells (divEq 100 (some (.dense A)) (some (.dense B))) = some (.ok ([3, 1, 2], [10, 33, 20, 44, 12, 39, 24, 52, 14, 45, 28, 60])) := by decide +kernel
example : cells (divEq 100 (some (.dense A)) (some (.dense ⟨[s, i], 4, fun a => 10 + a⟩))) = some (.ok ([1, 3], [10, 24, 33, 52])) := by decide +kernel
example : cells (divEq 100 (some (.dense ⟨[i], 2, fun a => 1 + a⟩)) (some (.dense ⟨[j], 3, fun a => 10 + a⟩))) =
    some (.ok ([1, 2], [10, 20, 11, 22, 12, 24])) := by decide +kernel
example : cells (divEq 100 (some (.dense ⟨[], 1, fun _ => 5⟩)) (some (.dense ⟨[i], 2, fun a => 1 + a⟩))) = some (.ok ([1], [5, 10])) := by decide +kernel

/-- The hypotheses are met. -/
example : A.OK ext ∧ B.OK ext ∧ (A.is ≠ [] ∨ B.is ≠ []) := ⟨⟨okIs _ (by decide +kernel), rfl⟩, ⟨okIs _ (by decide +kernel), rfl⟩, .inl (by simp [A])⟩

/-- The outcome of the product of tensors with quantum numbers: indices, blocks and elements. -/
def qcells : Run (Verif.QDense.QDense Int × IndexSet) → Option (Res (List Nat × List (List Nat) × List Int))
  | some (.ok (C, L)) => some (.ok (L.map (·.id), C.offsets.map (·.block), (List.range C.size).map fun (a : Nat) => C.data a))
  | some .throw => some .throw
  | some .ub => some .ub
  | none => none

open Verif.QDense in
/-- A matrix with the block `(0,0)` only. -/
def qA : Verif.QDense.QDense Int := ⟨[⟨[0, 0], 0⟩], 4, fun a => a + 1⟩

open Verif.QDense in
theorem qA_wf (i j : Nat) (di dj : Int) : WF [exI i di, exI j dj] qA.offsets qA.size := by
  refine ⟨by unfold SortedOff qA; decide, ?_, rfl, rfl⟩
  intro o ho
  have : o = ⟨[0, 0], 0⟩ := by simpa [qA] using ho
  subst this
  exact .cons (by show _ < 2; decide) (.cons (by show _ < 2; decide) .nil)

open Verif.QDense in
/-- With quantum numbers: the elementwise product of two matrices, the outer product of a matrix and a vector. -/
example : qcells (ncQ 100 [exI 1 1, exI 2 (-1)] [exI 2 (-1), exI 1 1] exD2 exD2) = some (.ok ([1, 2], [[0, 0], [1, 1]], [1, 6, 6, 16, 49])) := by decide +kernel
open Verif.QDense in
example : qcells (ncQ 100 [exI 1 1, exI 2 (-1)] [exI 3 (-1)] exD2 ⟨[⟨[0], 0⟩], 2, fun a => a + 10⟩) =
    some (.ok ([1, 2, 3], [[0, 0, 0], [1, 1, 0], [1, 0, 1]], [10, 20, 30, 40, 11, 22, 33, 44, 70, 77, 0, 0])) := by decide +kernel

end NcProdEx

open NcProdEx DirectSumEx in
/-- The product of two tensors without indices steps out of the bounds of the range of the result. -/
theorem C99_scalar_counterexample :
    ∃ L R : DS Int, L.OK ext ∧ R.OK ext ∧ ∀ fuel, 2 ≤ fuel → divEq fuel (some (.dense L)) (some (.dense R)) = some .ub :=
  ⟨⟨[], 1, fun _ => 5⟩, ⟨[], 1, fun _ => 7⟩, ⟨okIs _ (by decide +kernel), rfl⟩, ⟨okIs _ (by decide +kernel), rfl⟩, fun fuel hf => by
    obtain ⟨n, rfl⟩ := Nat.exists_eq_add_of_le' hf
    rfl⟩

open NcProdEx in
open DirectSumEx (ext i s okIs) in
/-- The product with a diagonal matrix is an error, whichever of the two is the diagonal one. -/
theorem C99_diag_counterexample :
    ∃ D : IT Int, D.OK ext ∧ D.is = [i, s] ∧ A.OK ext ∧ ∀ fuel, divEq fuel (some (.dense A)) (some D) = some .throw ∧ divEq fuel (some D) (some (.dense A)) = some .throw :=
  ⟨.diag ⟨[i, s], [], 1, 2⟩, ⟨okIs _ (by decide +kernel), by decide, .inr ⟨i, by decide, rfl⟩, .inl rfl⟩, rfl, ⟨okIs _ (by decide +kernel), rfl⟩, fun _ => ⟨rfl, rfl⟩⟩

open NcProdEx Verif.QDense in
/-- With quantum numbers, `A(i,s)/B(s,j)` writes through a null pointer. For the matrices `A` with the block `(0,0)` and `B` with the blocks `(0,0)` and `(1,1)` the product has the one block
`(0,0,0)` and so a flux, but the flux is computed from the block `(1,1)` of `B`, as the search for a block that matches compares the numbers of blocks with labels. With the other block of `A` as
well there is no flux that all blocks of the product have, and the outcome is the same. -/
theorem C99_qn_counterexample :
    WF [exI 1 1, exI 2 (-1)] qA.offsets qA.size ∧ WF [exI 1 1, exI 2 (-1)] exD2.offsets exD2.size ∧ WF [exI 2 (-1), exI 3 1] exD2.offsets exD2.size ∧
    calcDiv [exI 1 1, exI 2 (-1)] qA = .ok (exQ 0) ∧ calcDiv [exI 2 (-1), exI 3 1] exD2 = .ok (exQ 0) ∧
    qcells (ncQ 100 [exI 1 1, exI 2 (-1)] [exI 2 (-1), exI 3 1] qA exD2) = some .ub ∧
    qcells (ncQ 100 [exI 1 1, exI 2 (-1)] [exI 2 (-1), exI 3 1] exD2 exD2) = some .ub :=
  ⟨qA_wf _ _ _ _, exD2_wf _ _ _ _, exD2_wf _ _ _ _, by decide +kernel, by decide +kernel, by decide +kernel, by decide +kernel⟩

end Verif.Net
