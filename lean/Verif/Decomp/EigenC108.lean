import Verif.Decomp.Eigen
import Verif.Decomp.PolarC104
import Verif.Net.PermuteC100

/-!
# C108: `eigen` of a tensor
-/

namespace Verif.Eigen

open Verif.Tensor Verif.Index Verif.Index.IndexSet Verif.Net Finset
open Verif.TagSet (TagSet)
open Verif.Factor (kp kp_inj sumOver_put mul_spec mul_diag_spec)
open Function (update)

variable {K : Type*} [CommRing K] [DecidableEq K]

/-- What LAPACK promises: as many values as rows, the columns are eigenvectors, none is zero. -/
structure GeevOK (geev : Geev K) : Prop where
  len : ∀ N A, (geev N A).2.length = N
  eig : ∀ N A i j, i < N → j < N → ∑ t ∈ range N, A i t * (geev N A).1 t j = (geev N A).2.getD j 0 * (geev N A).1 i j
  nz : ∀ N A j, j < N → ∃ i, i < N ∧ (geev N A).1 i j ≠ 0

/-- The combiner with all its indices primed. -/
theorem combOK_prime {ext : Key → Nat} {c : Index} {cs : IndexSet} (h : CombOK ext c cs) (he : ∀ k ∈ keys (c :: cs), ext (kp 1 k) = ext k) :
    CombOK ext (c.dag.prime 1) (cs.map fun i => i.dag.prime 1) := by
  have hm : ∀ i ∈ (c :: cs).map fun i => i.dag.prime 1, ∃ j ∈ c :: cs, i.key = kp 1 j.key ∧ i.dim = j.dim ∧ i.qns = j.qns := by
    intro i hi
    obtain ⟨j, hj, rfl⟩ := List.mem_map.1 hi
    exact ⟨j, hj, rfl, rfl, rfl⟩
  refine ⟨⟨?_, fun i hi => ?_, fun i hi => ?_, fun i hi => ?_⟩, by simpa using h.ne, ?_⟩
  · have : keys ((c :: cs).map fun i => i.dag.prime 1) = (keys (c :: cs)).map (kp 1) := by
      unfold keys
      rw [List.map_map, List.map_map]
      rfl
    show (keys ((c :: cs).map fun i => i.dag.prime 1)).Nodup
    rw [this]
    exact h.is.nodup.map fun _ _ => kp_inj
  · obtain ⟨j, hj, h1, h2, _⟩ := hm i hi
    rw [h2, h1, he _ (List.mem_map_of_mem hj)]
    exact h.is.dims j hj
  · obtain ⟨j, hj, _, h2, _⟩ := hm i hi
    rw [h2]
    exact h.is.pos j hj
  · obtain ⟨j, hj, _, _, h3⟩ := hm i hi
    rw [h3]
    exact h.is.noqn j hj
  · show c.dim = _
    rw [h.dim, List.map_map]
    rfl

theorem keys_prime (is : IndexSet) : keys (is.map fun i => i.dag.prime 1) = (keys is).map (kp 1) := by
  unfold keys
  rw [List.map_map, List.map_map]
  rfl

theorem rank_bd {ext : Key → Nat} {c : Index} {cs : IndexSet} (h : CombOK ext c cs) {σ : Key → Nat} (hσ : ∀ k ∈ keys cs, σ k < ext k) :
    rank (cs.map (·.dim)) (cs.map fun i => σ i.key) < c.dim := by
  rw [h.dim]
  refine rank_lt ?_
  unfold Valid
  rw [List.forall₂_map_left_iff, List.forall₂_map_right_iff, List.forall₂_same]
  intro i hi
  rw [h.is.dims i (List.mem_cons_of_mem _ hi)]
  exact hσ _ (List.mem_map_of_mem hi)

/-- The matrix: after both products with the combiner and the reordering. -/
theorem matrix_ok {ext : Key → Nat} {T : DS K} (hT : T.OK ext) {c : Index} {cs : IndexSet} (hC : CombOK ext c cs) (he : ∀ k ∈ keys (c :: cs), ext (kp 1 k) = ext k)
    (hk : (keys T.is).Perm (keys cs ++ (keys cs).map (kp 1))) (hc : ∀ k ∈ keys T.is, k.1 ≠ c.id) (fuel : Nat)
    (hmax : (((T.is.map (·.dim)).prod : Nat) : Int) ≤ offMax) (hf : (T.is.map (·.dim)).prod < fuel) (hfc : c.dim * c.dim = (T.is.map (·.dim)).prod) (fresh : Int → K) :
    ∃ T1 T2 T3, mulCombiner fuel fresh T ((c :: cs).map fun i => i.dag.prime 1) = some (.ok T1) ∧ mulCombiner fuel fresh T1 (c :: cs) = some (.ok T2) ∧
      reorder fuel c T2 = some (.ok T3) ∧ T3.OK ext ∧ keys T3.is = [kp 1 c.key, c.key] ∧
      ∀ σ : Key → Nat, (∀ k ∈ keys T.is, σ k < ext k) → T.sem.val σ =
        T3.mem ((rank (cs.map (·.dim)) (cs.map fun i => σ (kp 1 i.key)) + rank (cs.map (·.dim)) (cs.map fun i => σ i.key) * c.dim : Nat) : Int) := by
  have hCp := combOK_prime hC he
  have hcp : (c.dag.prime 1).key = kp 1 c.key := rfl
  have hmem : ∀ k, k ∈ keys T.is ↔ k ∈ keys cs ∨ k ∈ (keys cs).map (kp 1) := fun k => by rw [hk.mem_iff, List.mem_append]
  have hdisj : ∀ k ∈ keys cs, k ∉ (keys cs).map (kp 1) := by
    intro k h1 h2
    exact (List.nodup_append.1 (hk.nodup_iff.1 hT.is.nodup)).2.2 k h1 k h2 rfl
  obtain ⟨i0, hi0⟩ := List.exists_mem_of_ne_nil _ hC.ne
  have hki0 : i0.key ∈ keys cs := List.mem_map_of_mem hi0
  have bnd : ∀ (t : DS K), t.OK ext → ∀ σ : Key → Nat, (∀ k ∈ keys t.is, σ k < ext k) → ∀ i ∈ t.is, σ i.key < i.dim := by
    intro t ht σ h i hi
    rw [ht.is.dims i hi]
    exact h _ (List.mem_map_of_mem hi)
  have hc1 : ∀ k ∈ keys T.is, k ≠ kp 1 c.key ∧ k ≠ c.key := fun k h => ⟨fun e => hc k h (by rw [e]; rfl), fun e => hc k h (by rw [e]; rfl)⟩
  have hcc : kp 1 c.key ≠ c.key := by
    intro e
    have := congrArg (fun k : Key => k.2.1) e
    simp [kp] at this
  -- the first product
  obtain ⟨T1, a1, a2, a3, a4⟩ := combine_ok hCp hT (fun h => (hc1 _ h).1 rfl) (fun k h => by
    rw [keys_prime] at h
    exact (hmem k).2 (.inr h)) fuel fresh hmax hf
  rw [keys_prime] at a3
  have m1 : ∀ k, k ∈ keys T1.is ↔ k ∈ keys cs ∨ k = kp 1 c.key := by
    intro k
    rw [a3, hmem]
    constructor
    · rintro (⟨h | h, h'⟩ | h)
      · exact .inl h
      · exact absurd h h'
      · exact .inr h
    · rintro (h | h)
      · exact .inl ⟨.inl h, hdisj k h⟩
      · exact .inr h
  have p1 : (keys T1.is).Perm (kp 1 c.key :: keys cs) := by
    rw [List.perm_ext_iff_of_nodup a2.is.nodup (List.nodup_cons.2 ⟨fun h => (hc1 _ ((hmem _).2 (.inl h))).1 rfl, (List.nodup_cons.1 hC.is.nodup).2⟩)]
    intro k
    rw [m1, List.mem_cons, or_comm]
  have d1 : (T1.is.map (·.dim)).prod = c.dim * c.dim := by
    rw [dims_ext a2.is.dims, (p1.map ext).prod_eq, List.map_cons, List.prod_cons, he _ (by simp [keys]), ← hC.is.dims c (by simp)]
    congr 1
    rw [hC.dim, dims_ext fun i hi => hC.is.dims i (List.mem_cons_of_mem _ hi)]
  -- the second product
  obtain ⟨T2, b1, b2, b3, b4⟩ := combine_ok hC a2 (fun h => by
    rcases (m1 _).1 h with h | h
    · exact (List.nodup_cons.1 hC.is.nodup).1 h
    · exact hcc h.symm) (fun k h => (m1 k).2 (.inl h)) fuel fresh (by rw [d1, hfc]; exact hmax) (by rw [d1, hfc]; exact hf)
  have m2 : ∀ k, k ∈ keys T2.is ↔ k = kp 1 c.key ∨ k = c.key := by
    intro k
    rw [b3, m1]
    constructor
    · rintro (⟨h | h, h'⟩ | h)
      · exact absurd h h'
      · exact .inl h
      · exact .inr h
    · rintro (h | h)
      · exact .inl ⟨.inr h, fun h' => (hc1 _ ((hmem _).2 (.inl h'))).1 h⟩
      · exact .inr h
  have p2 : (keys T2.is).Perm [kp 1 c.key, c.key] := by
    rw [List.perm_ext_iff_of_nodup b2.is.nodup (by simp [hcc])]
    intro k
    rw [m2]
    simp
  have d2 : (T2.is.map (·.dim)).prod = c.dim * c.dim := by
    rw [dims_ext b2.is.dims, (p2.map ext).prod_eq]
    simp only [List.map_cons, List.map_nil, List.prod_cons, List.prod_nil, mul_one]
    rw [he _ (by simp [keys]), ← hC.is.dims c (by simp)]
  -- the order
  have hre : ∃ T3, reorder fuel c T2 = some (.ok T3) ∧ T3.OK ext ∧ keys T3.is = [kp 1 c.key, c.key] ∧
      ∀ σ : Key → Nat, (∀ k ∈ keys T2.is, σ k < ext k) → T3.sem.val σ = T2.sem.val σ := by
    unfold reorder
    rcases hl : T2.is with _ | ⟨i, l⟩
    · rw [hl] at p2
      exact absurd p2.length_eq (by simp [keys])
    · by_cases hi : i.eq (c.prime 1) = true
      · refine ⟨T2, by simp only [hi, if_true], b2, ?_, fun σ _ => rfl⟩
        have hik : i.key = kp 1 c.key := Index.eq_iff.1 hi
        rw [hl] at p2 ⊢
        simp only [keys, List.map_cons, hik] at p2 ⊢
        rw [List.perm_singleton.1 (List.Perm.cons_inv p2)]
      · obtain ⟨N, n1, n2, n3, n4, n5⟩ := C100_permute_partial (T := IT.dense T2) b2 (iset := [c.prime 1, c]) p2.symm fuel (by
          show (((T2.is.map (·.dim)).prod : Nat) : Int) ≤ offMax
          rw [d2, hfc]; exact hmax) (by
          show (T2.is.map (·.dim)).prod < fuel
          rw [d2, hfc]; exact hf)
        cases N with
        | dense t =>
          refine ⟨t, ?_, n4, n3, fun σ hσ => ?_⟩
          · simp only [hi, Bool.false_eq_true, if_false]
            rw [n1]
            rfl
          · have hσ2 := bnd T2 b2 σ (by rw [hl]; exact hσ)
            obtain ⟨x, x1, x2⟩ := n5 σ hσ2
            have e1 := dense_elt b2 hσ2
            have hk3 : keys t.is = [kp 1 c.key, c.key] := n3
            have e2 := dense_elt (σ := σ) n4 (bnd t n4 σ (fun k hk' => hσ k (by
              rw [← hl]
              rw [hk3] at hk'
              exact p2.mem_iff.2 hk')))
            have y1 : Res.ok (T2.sem.val σ) = Res.ok x := e1.symm.trans x1
            have y2 : Res.ok (t.sem.val σ) = Res.ok x := e2.symm.trans x2
            rw [Res.ok.inj y1, Res.ok.inj y2]
        | diag d =>
          exfalso
          unfold IT.permute at n1
          split at n1
          · cases n1
          · split at n1
            · split at n1
              · cases n1
              · split at n1
                · simp only [Run.bind] at n1
                  split at n1 <;> simp at n1
                · cases n1
                · cases n1
            · cases n1
            · cases n1
  obtain ⟨T3, c1, c2, c3, c4⟩ := hre
  refine ⟨T1, T2, T3, ?_, ?_, c1, c2, c3, fun σ hσ => ?_⟩
  · rw [mulCombiner_eq ((hmem _).2 (.inl hki0))]
    exact a1
  · rw [mulCombiner_eq ((m1 _).2 (.inl hki0))]
    exact b1
  · have hσc : ∀ k ∈ keys cs, σ k < ext k := fun k h => hσ k ((hmem k).2 (.inl h))
    have hσp : ∀ k ∈ keys (cs.map fun i => i.dag.prime 1), σ k < ext k := fun k h => hσ k ((hmem k).2 (.inr (by rwa [keys_prime] at h)))
    have r1 := rank_bd hC hσc
    have r2 := rank_bd hCp hσp
    rw [← a4 σ (bnd T hT σ hσ)]
    set σ1 := combVal (c.dag.prime 1) (cs.map fun i => i.dag.prime 1) σ with hσ1
    have v1 : ∀ k, k ≠ kp 1 c.key → σ1 k = σ k := fun k h => Function.update_of_ne h _ _
    have v2 : σ1 (kp 1 c.key) = rank (cs.map (·.dim)) (cs.map fun i => σ (kp 1 i.key)) := by
      rw [hσ1]
      show update σ (kp 1 c.key) _ (kp 1 c.key) = _
      rw [Function.update_self, List.map_map, List.map_map]
      rfl
    have r2' : rank (cs.map (·.dim)) (cs.map fun i => σ (kp 1 i.key)) < c.dim := by
      have e : rank ((cs.map fun i => i.dag.prime 1).map (·.dim)) ((cs.map fun i => i.dag.prime 1).map fun i => σ i.key) =
          rank (cs.map (·.dim)) (cs.map fun i => σ (kp 1 i.key)) := by
        rw [List.map_map, List.map_map]
        rfl
      rw [← e]
      exact r2
    have hdc : ext c.key = c.dim := (hC.is.dims c (by simp)).symm
    have hcs1 : ∀ k ∈ keys cs, σ1 k = σ k := fun k h => v1 k fun e => (hc1 k ((hmem k).2 (.inl h))).1 e
    have b1' : ∀ k ∈ keys T1.is, σ1 k < ext k := by
      intro k h
      rcases (m1 k).1 h with h | rfl
      · rw [hcs1 k h]
        exact hσc k h
      · rw [v2, he _ (by simp [keys]), hdc]
        exact r2'
    rw [← b4 σ1 (bnd T1 a2 σ1 b1')]
    set σ2 := combVal c cs σ1 with hσ2
    have w1 : σ2 (kp 1 c.key) = rank (cs.map (·.dim)) (cs.map fun i => σ (kp 1 i.key)) := by
      rw [hσ2, combVal, Function.update_of_ne hcc, v2]
    have w2 : σ2 c.key = rank (cs.map (·.dim)) (cs.map fun i => σ i.key) := by
      rw [hσ2, combVal, Function.update_self]
      congr 1
      exact List.map_congr_left fun i hi => hcs1 _ (List.mem_map_of_mem hi)
    rw [← c4 σ2 (by
      intro k h
      rcases (m2 k).1 h with rfl | rfl
      · rw [w1, he _ (by simp [keys]), hdc]; exact r2'
      · rw [w2, hdc]; exact r1)]
    show T3.mem _ = _
    have e1 : (T3.is.map fun i => σ2 i.key) = [σ2 (kp 1 c.key), σ2 c.key] := by
      rw [vals_keys, c3]
      rfl
    have e2 : T3.is.map (·.dim) = [c.dim, c.dim] := by
      rw [dims_ext c2.is.dims, c3]
      simp only [List.map_cons, List.map_nil]
      rw [he _ (by simp [keys]), hdc]
    rw [e1, e2, w1, w2]
    congr 2
    simp only [rank]
    ring

theorem newInd_plev {id m : Nat} {tags : TagSet} (h : tags.plev ≤ 0) : (newInd id m tags).tags.plev = 0 := by
  unfold newInd
  by_cases h0 : tags.plev < 0
  · simp [h0, TagSet.setPrime]
  · simp only [h0, if_false]
    omega

theorem keys_prime_all (is : IndexSet) : keys (prime 1 is .all) = (keys is).map (kp 1) := by
  unfold prime modifyMatch keys
  rw [List.map_map, List.map_map]
  rfl

omit [DecidableEq K] in
/-- Priming all indices renames. -/
theorem prime_all {ext : Key → Nat} {t : DS K} (ht : t.OK ext) (he : ∀ k ∈ keys t.is, ext (kp 1 k) = ext k) :
    (⟨prime 1 t.is .all, t.size, t.mem⟩ : DS K).OK ext ∧ ∀ σ, (⟨prime 1 t.is .all, t.size, t.mem⟩ : DS K).sem.val σ = t.sem.val fun k => σ (kp 1 k) := by
  have hd : (prime 1 t.is .all).map (·.dim) = t.is.map (·.dim) := by
    unfold prime modifyMatch
    rw [List.map_map]
    rfl
  refine ⟨⟨⟨?_, fun i hi => ?_, fun i hi => ?_, fun i hi => ?_⟩, ?_⟩, fun σ => ?_⟩
  · show (keys (prime 1 t.is .all)).Nodup
    rw [keys_prime_all]
    exact ht.is.nodup.map fun _ _ => kp_inj
  · obtain ⟨j, hj, rfl⟩ := List.mem_map.1 hi
    show j.dim = ext (kp 1 j.key)
    rw [he _ (List.mem_map_of_mem hj)]
    exact ht.is.dims j hj
  · obtain ⟨j, hj, rfl⟩ := List.mem_map.1 hi
    exact ht.is.pos j hj
  · obtain ⟨j, hj, rfl⟩ := List.mem_map.1 hi
    exact ht.is.noqn j hj
  · show t.size = ((prime 1 t.is .all).map (·.dim)).prod
    rw [hd]
    exact ht.size
  · show t.mem (rank ((prime 1 t.is .all).map (·.dim)) ((prime 1 t.is .all).map fun i => σ i.key) : Nat) = t.mem _
    rw [hd]
    congr 3
    unfold prime modifyMatch
    rw [List.map_map]
    rfl

/-- **C108.** A tensor whose indices are some indices without primes and the same indices with one prime, in any order. `eigen` returns a tensor `V` with the indices without primes and a new
index, and a diagonal `D` with the new index and its primed copy; the products `T*V` and `prime(V)*D`, as the library computes them, have the same indices and the same elements; and no value of the
new index gives an eigenvector which is zero. Partial: without quantum numbers, LAPACK is given by what it promises, and the dimensions are bounded by what the library can count to. -/
theorem C108_eigen_partial {ext : Key → Nat} {T : DS K} (hT : T.OK ext) {geev : Geev K} (hg : GeevOK geev) {id1 id2 : Nat} (hid : id1 ≠ id2) (hids : ∀ i ∈ T.is, i.id ≠ id1 ∧ i.id ≠ id2)
    {tags : TagSet} (ht : tags.plev ≤ 0) {cols : IndexSet} (hcols : cols = T.is.filter fun i => i.plev = 0) (hne : cols ≠ [])
    (hk : (keys T.is).Perm (keys cols ++ (keys cols).map (kp 1))) (he : ∀ k ∈ keys cols, ext (kp 1 k) = ext k)
    (hx : ∀ k : Key, k.1 = id1 ∨ k.1 = id2 → ext k = (cols.map (·.dim)).prod) {fuel : Nat} (hmax : (((T.is.map (·.dim)).prod : Nat) : Int) ≤ offMax)
    (hf : (T.is.map (·.dim)).prod < fuel) (junk fresh : Int → K) :
    ∃ (V : DS K) (D : DG K) (m : Key), eigen fuel fresh geev id1 id2 tags T = some (.ok (V, D)) ∧ V.OK ext ∧ D.OK ext ∧ m.1 = id2 ∧ (keys V.is).Perm (m :: keys cols) ∧ keys D.is = [kp 1 m, m] ∧
      (∃ P Q : IT K, (IT.dense T).mulEq fuel junk fresh (.dense V) = some (.ok P) ∧ (IT.dense ⟨prime 1 V.is .all, V.size, V.mem⟩).mulEq fuel junk fresh (.diag D) = some (.ok Q) ∧
        (keys P.is).Perm (m :: (keys cols).map (kp 1)) ∧ (keys Q.is).Perm (m :: (keys cols).map (kp 1)) ∧
        ∀ σ : Key → Nat, (∀ k ∈ m :: (keys cols).map (kp 1), σ k < ext k) → P.sem.val σ = Q.sem.val σ) ∧
      ∀ J < (cols.map (·.dim)).prod, ∃ σ : Key → Nat, (∀ k ∈ keys V.is, σ k < ext k) ∧ σ m = J ∧ V.sem.val σ ≠ 0 := by
  have hsub : ∀ i ∈ cols, i ∈ T.is := fun i hi => (List.mem_filter.1 (hcols ▸ hi)).1
  have hIc : IsOK ext cols := ⟨by
    rw [hcols]
    exact hT.is.nodup.sublist ((List.filter_sublist).map _), fun i hi => hT.is.dims i (hsub i hi), fun i hi => hT.is.pos i (hsub i hi), fun i hi => hT.is.noqn i (hsub i hi)⟩
  set N := (cols.map (·.dim)).prod with hN
  have hcomb : combinerInds id1 tags cols = .ok (newInd id1 N tags :: cols) := by
    unfold combinerInds
    rw [if_neg (by simpa using hne)]
    rfl
  set c := newInd id1 N tags with hc
  have hcid : c.key.1 = id1 := rfl
  have hcN : ext c.key = N := hx _ (.inl rfl)
  have hC : CombOK ext c cols := by
    obtain ⟨c', h1, -, h3⟩ := combinerInds_ok hIc hcomb fun i hi => (hids i (hsub i hi)).1
    obtain rfl : c = c' := (List.cons.inj h1).1
    rwa [Function.update_eq_self_iff.2 hcN.symm] at h3
  have heC : ∀ k ∈ keys (c :: cols), ext (kp 1 k) = ext k := by
    intro k h
    rcases List.mem_cons.1 h with rfl | h
    · show ext (kp 1 c.key) = ext c.key
      rw [hcN]
      exact hx _ (.inl rfl)
    · exact he k h
  have hTid : ∀ k ∈ keys T.is, k.1 ≠ id1 ∧ k.1 ≠ id2 := by
    intro k h
    obtain ⟨i, hi, rfl⟩ := List.mem_map.1 h
    exact hids i hi
  have hTd : (T.is.map (·.dim)).prod = N * N := by
    rw [dims_ext hT.is.dims, (hk.map ext).prod_eq, List.map_append, List.prod_append, List.map_map, hN, dims_ext hIc.dims]
    congr 2
    exact List.map_congr_left fun k h => he k h
  obtain ⟨T1, T2, T3, a1, a2, a3, a4, a5, a6⟩ := matrix_ok hT hC heC hk (fun k h => (hTid k h).1) fuel hmax hf hTd.symm fresh
  have hNpos : 0 < N := by
    rw [hN]
    refine Nat.pos_of_ne_zero fun h => ?_
    obtain ⟨i, hi, h0⟩ := List.mem_map.1 (List.prod_eq_zero_iff.1 h)
    exact absurd h0 (by have := hIc.pos i hi; omega)
  have hcp : c.tags.plev = 0 := newInd_plev ht
  -- the decomposition of the matrix
  set A : Nat → Nat → K := fun a b => T3.mem ((a + b * N : Nat) : Int) with hA
  set mid := newInd id2 N tags with hmid
  have hmN : ext mid.key = N := hx _ (.inr rfl)
  have hmN' : ext (kp 1 mid.key) = N := hx _ (.inr rfl)
  have hmm : kp 1 mid.key ≠ mid.key := by
    intro e
    have := congrArg (fun k : Key => k.2.1) e
    simp [kp] at this
  have hcm : c.key ≠ mid.key := fun e => hid (congrArg Prod.fst e)
  obtain ⟨i, j, hij⟩ : ∃ i j, T3.is = [i, j] := by
    have : T3.is.length = 2 := by
      have := congrArg List.length a5
      simpa [keys] using this
    match hh : T3.is, this with
    | [i, j], _ => exact ⟨i, j, rfl⟩
  have hik : i.key = kp 1 c.key := by
    rw [hij] at a5
    exact (List.cons.inj a5).1
  have hlk : (i.setPrime 0).key = c.key := by
    have e1 := congrArg (fun k : Key => k.1) hik
    have e3 := congrArg (fun k : Key => k.2.2) hik
    have e2 : c.key.2.1 = 0 := hcp
    refine Prod.ext e1 (Prod.ext ?_ e3)
    rw [e2]
    rfl
  have hid' : i.dim = N := by
    rw [a4.is.dims i (by rw [hij]; simp), hik]
    exact hx _ (.inl rfl)
  have hld : (i.setPrime 0).dim = N := hid'
  have hdec : eigDecomp geev id2 tags T3 = .ok (⟨[i.setPrime 0, mid], N * N, fun a => (geev N A).1 (a.toNat % N) (a.toNat / N)⟩, ⟨[mid.prime 1, mid], (geev N A).2, 0, N⟩) := by
    unfold eigDecomp
    rw [hij]
    have hsz : ¬ T3.size < N * N := by
      rw [a4.size, dims_ext a4.is.dims, a5]
      simp only [List.map_cons, List.map_nil, List.prod_cons, List.prod_nil, mul_one]
      rw [hcN, heC _ (by simp [keys]), hcN]
      omega
    have heq : ((i.setPrime 0).prime 1).eq i = true := by
      rw [Index.eq_iff, hik, Verif.Factor.kp_key, hlk]
    simp only [hld, if_neg hsz, heq, if_true]
    rfl
  set V0 : DS K := ⟨[i.setPrime 0, mid], N * N, fun a => (geev N A).1 (a.toNat % N) (a.toNat / N)⟩ with hV0
  set D : DG K := ⟨[mid.prime 1, mid], (geev N A).2, 0, N⟩ with hD
  have hkV0 : keys V0.is = [c.key, mid.key] := by
    show [(i.setPrime 0).key, mid.key] = _
    rw [hlk]
  have okV0 : V0.OK ext := by
    refine ⟨⟨?_, ?_, ?_, ?_⟩, ?_⟩
    · show (keys V0.is).Nodup
      rw [hkV0]
      simp [hcm]
    · intro x hx'
      rcases List.mem_cons.1 hx' with rfl | hx'
      · rw [hlk, hcN, hld]
      · obtain rfl := List.mem_singleton.1 hx'
        rw [hmN]
        rfl
    · intro x hx'
      rcases List.mem_cons.1 hx' with rfl | hx'
      · rw [hld]; exact hNpos
      · obtain rfl := List.mem_singleton.1 hx'
        exact hNpos
    · intro x hx'
      rcases List.mem_cons.1 hx' with rfl | hx'
      · exact a4.is.noqn i (by rw [hij]; simp)
      · obtain rfl := List.mem_singleton.1 hx'
        rfl
    · show N * N = ([(i.setPrime 0).dim, mid.dim]).prod
      rw [hld]
      simp [hmid, newInd]
  have valV0 : ∀ τ : Key → Nat, τ c.key < N → V0.sem.val τ = (geev N A).1 (τ c.key) (τ mid.key) := by
    intro τ hτ
    show (geev N A).1 (Int.toNat ((rank [(i.setPrime 0).dim, mid.dim] [τ (i.setPrime 0).key, τ mid.key] : Nat) : Int) % N) (Int.toNat ((rank [(i.setPrime 0).dim, mid.dim] [τ (i.setPrime 0).key, τ mid.key] : Nat) : Int) / N) = _
    rw [hlk, hld]
    simp only [rank, Int.toNat_natCast, mul_zero, add_zero]
    rw [Nat.add_mul_mod_self_left, Nat.mod_eq_of_lt hτ, Nat.add_mul_div_left _ _ hNpos, Nat.div_eq_of_lt hτ, zero_add]
  have okD : D.OK ext := by
    refine ⟨⟨?_, ?_, ?_, ?_⟩, ?_, .inr ⟨mid, by simp [hD], rfl⟩, .inr (hg.len N A)⟩
    · show [kp 1 mid.key, mid.key].Nodup
      simp [hmm]
    · intro x hx'
      rcases List.mem_cons.1 hx' with rfl | hx'
      · exact hmN'.symm
      · obtain rfl := List.mem_singleton.1 hx'
        exact hmN.symm
    all_goals
      intro x hx'
      rcases List.mem_cons.1 hx' with rfl | hx'
      · first | exact hNpos | rfl | exact le_refl N
      · obtain rfl := List.mem_singleton.1 hx'
        first | exact hNpos | rfl | exact le_refl N
  have hatD : ∀ J, D.at' J = (geev N A).2.getD J 0 := by
    intro J
    unfold DG.at'
    rw [if_neg]
    intro h
    have h1 : (geev N A).2 = [] := by simpa [hD] using h
    have h2 := hg.len N A
    rw [h1] at h2
    simp at h2
    omega
  have hcc : c.key ∉ keys cols := (List.nodup_cons.1 hC.is.nodup).1
  have hcolT : ∀ k ∈ keys cols, k ∈ keys T.is := fun k h => hk.mem_iff.2 (List.mem_append_left _ h)
  have hcolT' : ∀ k ∈ (keys cols).map (kp 1), k ∈ keys T.is := fun k h => hk.mem_iff.2 (List.mem_append_right _ h)
  have hdisj : ∀ k ∈ keys cols, k ∉ (keys cols).map (kp 1) := by
    intro k h1 h2
    exact (List.nodup_append.1 (hk.nodup_iff.1 hT.is.nodup)).2.2 k h1 k h2 rfl
  have hmT : mid.key ∉ keys T.is := fun h => (hTid _ h).2 rfl
  have hmT' : kp 1 mid.key ∉ keys T.is := fun h => (hTid _ h).2 rfl
  have hcT' : c.key ∉ keys T.is := fun h => (hTid _ h).1 rfl
  -- back to the indices of the tensor
  obtain ⟨V, v1, v2, v3, v4⟩ := uncombine_ok hC okV0 (by rw [hkV0]; simp) (fun k h h' => by
    rw [hkV0] at h'
    rcases List.mem_cons.1 h' with rfl | h'
    · exact hcc h
    · rw [List.mem_singleton.1 h'] at h
      exact hmT (hcolT _ h)) fuel fresh
  have memV : ∀ k, k ∈ keys V.is ↔ k = mid.key ∨ k ∈ keys cols := by
    intro k
    rw [v3, hkV0]
    constructor
    · rintro (⟨h, h'⟩ | h)
      · rcases List.mem_cons.1 h with rfl | h
        · exact absurd rfl h'
        · exact .inl (List.mem_singleton.1 h)
      · exact .inr h
    · rintro (rfl | h)
      · exact .inl ⟨by simp, hcm.symm⟩
      · exact .inr h
  have ndV : (mid.key :: keys cols).Nodup := List.nodup_cons.2 ⟨fun h => hmT (hcolT _ h), hIc.nodup⟩
  have pV : (keys V.is).Perm (mid.key :: keys cols) := by
    rw [List.perm_ext_iff_of_nodup v2.is.nodup ndV]
    intro k
    rw [memV, List.mem_cons]
  have valV : ∀ τ : Key → Nat, (∀ k ∈ keys cols, τ k < ext k) → V.sem.val τ = (geev N A).1 (rank (cols.map (·.dim)) (cols.map fun i => τ i.key)) (τ mid.key) := by
    intro τ hτ
    have hr : rank (cols.map (·.dim)) (cols.map fun i => τ i.key) < N := rank_bd hC hτ
    rw [v4 τ, valV0 _ (by rw [combVal, Function.update_self]; exact hr)]
    rw [combVal, Function.update_self, Function.update_of_ne hcm.symm]
  have run : eigen fuel fresh geev id1 id2 tags T = some (.ok (V, D)) := by
    unfold eigen
    rw [← hcols, hcomb]
    show Run.bind (mulCombiner fuel fresh T ((c :: cols).map fun i => i.dag.prime 1)) _ = _
    rw [a1]
    show Run.bind (mulCombiner fuel fresh T1 (c :: cols)) _ = _
    rw [a2]
    show Run.bind (reorder fuel c T2) _ = _
    rw [a3]
    simp only [Run.bind]
    rw [hdec]
    show Run.bind (mulCombiner fuel fresh V0 (c :: cols)) _ = _
    rw [mulCombiner_eq (k := c.key) (by rw [hkV0]; simp), v1]
    rfl
  have dcols : ((keys cols).map ext).prod = N := by rw [hN, dims_ext hIc.dims]
  have dcols' : (((keys cols).map (kp 1)).map ext).prod = N := by
    rw [← dcols, List.map_map]
    congr 1
    exact List.map_congr_left fun k h => he k h
  have dV : ((mid.key :: keys cols).map ext).prod = N * N := by rw [List.map_cons, List.prod_cons, dcols, hmN]
  have dR : ((mid.key :: (keys cols).map (kp 1)).map ext).prod = N * N := by rw [List.map_cons, List.prod_cons, dcols', hmN]
  rw [hTd] at hmax hf
  -- `T*V`
  obtain ⟨P, p1, p2, p3, p4⟩ := mul_spec (L := .dense T) (R := .dense V) hT v2 (.inr (.inr trivial)) (mid.key :: (keys cols).map (kp 1))
    (List.nodup_cons.2 ⟨fun h => hmT (hcolT' _ h), hIc.nodup.map fun _ _ => kp_inj⟩) (by
      intro k
      change _ ↔ (k ∈ keys T.is ∧ k ∉ keys V.is) ∨ (k ∈ keys V.is ∧ k ∉ keys T.is)
      rw [memV, List.mem_cons]
      constructor
      · rintro (rfl | h)
        · exact .inr ⟨.inl rfl, hmT⟩
        · exact .inl ⟨hcolT' k h, by rintro (rfl | h'); exacts [hmT (hcolT' _ h), hdisj k h' h]⟩
      · rintro (⟨h, h'⟩ | ⟨h | h, h'⟩)
        · rcases List.mem_append.1 (hk.mem_iff.1 h) with h | h
          · exact absurd (.inr h) h'
          · exact .inr h
        · exact .inl h
        · exact absurd (hcolT k h) h') hmax hf
    (by change ((keys T.is).map ext).prod ≤ _; rw [← dims_ext hT.is.dims, hTd]) (by change ((keys V.is).map ext).prod ≤ _; rw [(pV.map ext).prod_eq, dV]) (by rw [dR]) junk fresh
  -- `prime(V)*D`
  have heV : ∀ k ∈ keys V.is, ext (kp 1 k) = ext k := by
    intro k h
    rcases (memV k).1 h with rfl | h
    · rw [hmN, hmN']
    · exact he k h
  obtain ⟨w1, w2⟩ := prime_all v2 heV
  obtain ⟨Q, q1, q2, q3, q4⟩ := mul_diag_spec (x := kp 1 mid.key) (y := mid.key) (c := (keys cols).map (kp 1)) w1 okD (by
      show (keys (prime 1 V.is .all)).Perm _
      rw [keys_prime_all]
      exact pV.map _) (by simpa [keys] using hne) (by
      intro k
      show k ∈ [kp 1 mid.key, mid.key] ↔ _
      simp) hmm (fun h => hmT (hcolT' _ h)) hmN' hmN hmax hf (by rw [List.map_cons, List.prod_cons, dcols', hmN']) (by rw [hmN, hmN']) junk fresh
  refine ⟨V, D, mid.key, run, v2, okD, rfl, pV, rfl, ⟨P, .dense Q, p1, q1, p3, q3, fun σ hσ => ?_⟩, fun J hJ => ?_⟩
  · have hσm : σ mid.key < N := by rw [← hmN]; exact hσ _ (by simp)
    have hσp : ∀ k ∈ keys cols, σ (kp 1 k) < ext k := fun k h => by
      rw [← he k h]
      exact hσ _ (List.mem_cons_of_mem _ (List.mem_map_of_mem h))
    set I := rank (cols.map (·.dim)) (cols.map fun i => σ (kp 1 i.key)) with hI
    have hIN : I < N := rank_bd hC (σ := fun k => σ (kp 1 k)) hσp
    have hQ : (IT.dense Q).sem.val σ = (geev N A).2.getD (σ mid.key) 0 * (geev N A).1 I (σ mid.key) := by
      show Q.sem.val σ = _
      rw [q4 σ hσ, hatD, w2, valV]
      · have e0 : (cols.map fun i => update σ (kp 1 mid.key) (σ mid.key) (kp 1 i.key)) = cols.map fun i => σ (kp 1 i.key) := by
          refine List.map_congr_left fun i hi => ?_
          rw [Function.update_of_ne]
          exact fun e => hmT' (e ▸ hcolT' _ (List.mem_map_of_mem (List.mem_map_of_mem hi)))
        rw [Function.update_self, e0]
      · intro k h
        rw [Function.update_of_ne fun e : kp 1 k = kp 1 mid.key => hmT' (e ▸ hcolT' _ (List.mem_map_of_mem h))]
        exact hσp k h
    rw [hQ, p4 σ hσ, ← hg.eig N A I _ hIN hσm]
    have hs : (mul ext (IT.dense T).sem (IT.dense V).sem).val σ = sumOver ext (keys cols) (fun τ => T.sem.val τ * V.sem.val τ) σ := by
      unfold mul
      refine sumOver_perm ext ?_ (hT.is.nodup.filter _) (fun τ => T.sem.val τ * V.sem.val τ) σ
      rw [List.perm_ext_iff_of_nodup (hT.is.nodup.filter _) hIc.nodup]
      intro k
      simp only [List.mem_filter, decide_eq_true_eq]
      change k ∈ keys T.is ∧ k ∈ keys V.is ↔ _
      rw [memV]
      constructor
      · rintro ⟨h, rfl | h'⟩
        · exact absurd h hmT
        · exact h'
      · exact fun h => ⟨hcolT k h, .inr h⟩
    rw [hs, sumOver_put _ hIc.nodup, dcols]
    refine sum_congr rfl fun v hv => ?_
    have hv' : v < ((keys cols).map ext).prod := by rw [dcols]; exact mem_range.1 hv
    obtain ⟨u1, u2⟩ := putRank_rank ext (keys cols) σ v hIc.nodup hv'
    have u3 : ∀ k ∈ keys cols, putRank ext σ (keys cols) v (kp 1 k) = σ (kp 1 k) := fun k h => putRank_other ext _ _ _ _ fun h' => hdisj _ h' (List.mem_map_of_mem h)
    have u4 : putRank ext σ (keys cols) v mid.key = σ mid.key := putRank_other ext _ _ _ _ fun h => hmT (hcolT _ h)
    have u5 : rank (cols.map (·.dim)) (cols.map fun i => putRank ext σ (keys cols) v i.key) = v := by
      rw [dims_ext hIc.dims, vals_keys]
      exact u1
    rw [a6 _ (by
      intro k h
      rcases List.mem_append.1 (hk.mem_iff.1 h) with h | h
      · exact u2 k h
      · obtain ⟨l, hl, rfl⟩ := List.mem_map.1 h
        rw [u3 l hl, he l hl]
        exact hσp l hl), valV _ u2, u4, u5]
    have u6 : (cols.map fun i => putRank ext σ (keys cols) v (kp 1 i.key)) = cols.map fun i => σ (kp 1 i.key) :=
      List.map_congr_left fun i hi => u3 _ (List.mem_map_of_mem hi)
    rw [u6]
    rfl
  · obtain ⟨I, h1, h2⟩ := hg.nz N A J hJ
    obtain ⟨u1, u2⟩ := putRank_rank ext (keys cols) (fun _ => J) I hIc.nodup (by rw [dcols]; exact h1)
    have u4 : putRank ext (fun _ => J) (keys cols) I mid.key = J := putRank_other ext _ _ _ _ fun h => hmT (hcolT _ h)
    refine ⟨putRank ext (fun _ => J) (keys cols) I, fun k h => ?_, u4, ?_⟩
    · rcases (memV k).1 h with rfl | h
      · rw [u4, hmN]
        exact hJ
      · exact u2 k h
    · rw [valV _ u2, u4, dims_ext hIc.dims, vals_keys, u1]
      exact h2

end Verif.Eigen
