import Verif.QDense.Add
import Verif.QDense.Props

/-!
# Block-sparse storage: property C23 (addition)
-/

namespace Verif.QDense

open Verif.Index (Index IndexSet)
open Verif.Index.IndexSet (keys)
open Verif.Tensor
open Verif.Tensor.Permutation (IsPerm)

section
variable {K : Type*} [CommRing K]

/-- `daxpy(L,R,alpha)` (itensor.cc:1207-1251) for two QDense tensors: indices `is1`, storage `A` and
indices `is2`, storage `B`. `calcPerm` compares indices by `==`, which is equality of `Index.key`
(`Index.eq_iff`). The checks of divergence and arrows are not modelled. -/
def daxpy (fuel : Nat) (is1 is2 : IndexSet) (alpha : K) (A B : QDense K) : Run (QDense K) :=
  if is1.length ≠ is2.length then some .throw
  else if B.offsets.length = 0 then some (.ok A)
  else
    match Permutation.calcPerm (is2.map Index.key) (is1.map Index.key) with
    | .ok P => plusEq fuel P is1 is2 alpha A B
    | .throw => some .throw
    | .ub => some .ub

/-- `daxpy_wrapper(dA.size(),alpha,dB,1,dA,1)` (qdense.cc:521-527): the order-0 case on the views of
real numbers; a complex storage is seen as twice as many reals. -/
def addReals (alpha : K) : List K → List K → Res (List K)
  | [], _ => .ok []
  | _ :: _, [] => .ub
  | a :: as, b :: bs => (addReals alpha as bs).bind fun r => .ok ((a + alpha * b) :: r)

theorem tile_size {is : IndexSet} {l : List BlOf} {s e : Nat} (h : Tile is l s e) :
    e = s + ((l.map (·.block)).map (bdim is)).sum := by
  induction l generalizing s with
  | nil => exact h.symm
  | cons o l ih => have := ih h.2; simp only [List.map_cons, List.sum_cons]; omega

theorem mergeBlocks_sum (f : Block → Nat) (as bs : List Block) :
    ((mergeBlocks as bs).map f).sum ≤ (as.map f).sum + (bs.map f).sum := by
  induction as, bs using mergeBlocks.induct with
  | case1 bs => simp [mergeBlocks]
  | case2 as h => cases as <;> simp [mergeBlocks]
  | case3 a as b bs h ih => rw [mergeBlocks, if_pos h]; simp only [List.map_cons, List.sum_cons] at *; omega
  | case4 a as b bs h1 h2 ih =>
    rw [mergeBlocks, if_neg h1, if_pos h2]; simp only [List.map_cons, List.sum_cons] at *; omega
  | case5 a as b bs h1 h2 ih =>
    rw [mergeBlocks, if_neg h1, if_neg h2]; simp only [List.map_cons, List.sum_cons] at *; omega

theorem pk_perm {P : List Nat} (hP : IsPerm P) {l : List Nat} (hl : l.length = P.length) :
    (pk P l).Perm l := by
  have h1 : (pk P l).Perm ((List.range P.length).map fun i => l.getD i 0) := List.Perm.map _ hP
  have h2 : ((List.range P.length).map fun i => l.getD i 0) = l := by
    have := pk_ident (l := l) hl
    simpa [pk, Permutation.ident] using this
  rw [h2] at h1; exact h1

theorem Match.symm {P Q : List Nat} {is1 is2 : IndexSet} (h : Match P is1 is2) (hQ : IsPerm Q)
    (hl : Q.length = P.length) (hq : ∀ (n d : Nat), Q[n]? = some d → P[d]? = some n) :
    Match Q is2 is1 :=
  ⟨hQ, by rw [hl, h.len2], by rw [hl, h.len1],
    fun i d I J hi hI hJ => (h.szs d i J I (hq i d hi) hJ hI).symm⟩

theorem Match.bdim {P : List Nat} {is1 is2 : IndexSet} (h : Match P is1 is2) {a : Block}
    (ha : Valid (nb is1) a) : bdim is2 (pk P a) = QDense.bdim is1 a := by
  unfold QDense.bdim
  rw [h.bext ha]
  exact (pk_perm h.perm (by rw [bext_length ha, h.len1])).prod_eq

theorem bdim_pos {is : IndexSet} (hp : PosSectors is) {b : Block} (hb : Valid (nb is) b) :
    0 < bdim is b := List.prod_pos (bext_pos hp hb)

theorem Match.posSectors {P : List Nat} {is1 is2 : IndexSet} (h : Match P is1 is2)
    (hp : PosSectors is1) : PosSectors is2 := by
  intro J hJ s hs
  obtain ⟨i, hi⟩ := List.mem_iff_getElem?.1 hJ
  have hiP : i < P.length := by rw [h.len2]; exact (List.getElem?_eq_some_iff.1 hi).1
  obtain ⟨I, J', hI, hJ', e⟩ := h.get (List.getElem?_eq_getElem hiP)
  rw [hi] at hJ'; cases hJ'
  rw [e] at hs
  exact hp I (List.mem_of_getElem? hI) s hs

theorem wf_empty_of_size {is : IndexSet} (hp : PosSectors is) {offs : List BlOf} (h : WF is offs 0) :
    offs = [] := by
  cases offs with
  | nil => rfl
  | cons o os =>
    have h1 := (h.tile.bounds o (by simp)).2
    have h2 := bdim_pos hp (h.valid o (by simp))
    omega

theorem elem_zero_of_notMem {is : IndexSet} {d : QDense K} (h : WF is d.offsets d.size) {b : Block}
    (hv : Valid (nb is) b) (hb : b ∉ d.offsets.map (·.block)) (u : List Nat) : elem d is b u = 0 := by
  unfold elem
  rw [getBlock_notMem h hv (fun o ho e => hb (List.mem_map.2 ⟨o, ho, e⟩))]

theorem plusEq_spec {P : List Nat} {is1 is2 : IndexSet} (hne : is1 ≠ []) (h : Match P is1 is2)
    (hpos : PosSectors is1) {A B : QDense K} (hA : WF is1 A.offsets A.size) (hB : WF is2 B.offsets B.size)
    (alpha : K) {fuel : Nat} (hf : A.size + B.size < fuel)
    (hmax : ((A.size + B.size : Nat) : Int) ≤ offMax) :
    ∃ A', plusEq fuel P is1 is2 alpha A B = some (.ok A') ∧ WF is1 A'.offsets A'.size ∧
      ∀ b u, Valid (nb is1) b → Valid (bext is1 b) u →
        elem A' is1 b u = elem A is1 b u + alpha * elem B is2 (pk P b) (pk P u) := by
  by_cases hB0 : B.size = 0
  · have hoff : B.offsets = [] := wf_empty_of_size (h.posSectors hpos) (by rw [hB0] at hB; exact hB)
    refine ⟨A, by unfold plusEq; rw [if_pos hB0], hA, ?_⟩
    intro b u hb hu
    rw [elem_zero_of_notMem hB (h.valid hb) (by simp [hoff]), mul_zero, add_zero]
  · obtain ⟨Q, hQ1, hQ2, hQ3, hQ4, hQ5, _⟩ := C16_inverse P h.perm
    have hs := h.symm hQ2 hQ3 hQ5
    have hBlen : ∀ o ∈ B.offsets, o.block.length = P.length := by
      intro o ho
      rw [valid_length (hB.valid o ho), h.len2]; simp [nb]
    have hpa : pickAll Q (B.offsets.map (·.block)) = .ok ((B.offsets.map (·.block)).map (pk Q)) := by
      apply pickAll_ok
      intro b hb i hi
      obtain ⟨o, ho, rfl⟩ := List.mem_map.1 hb
      rw [hBlen o ho, ← hQ3]; exact hQ2.lt hi
    set bps := (B.offsets.map (·.block)).map (pk Q) with hbps
    set Ab := A.offsets.map (·.block) with hAb
    set cb := mergeBlocks Ab (sortBlocks bps) with hcb
    have hAs : SortedB Ab := by rw [hAb]; exact List.pairwise_map.2 hA.sorted
    have hbnd : bps.Nodup := by
      rw [hbps]
      refine List.Nodup.map_on ?_ (sortedOff_nodup hB.sorted)
      intro x hx y hy e
      obtain ⟨o, ho, rfl⟩ := List.mem_map.1 hx
      obtain ⟨o', ho', rfl⟩ := List.mem_map.1 hy
      exact pk_inj hQ2 (by rw [hBlen o ho, hQ3]) (by rw [hBlen o' ho', hQ3]) e
    have hcs : SortedB cb := mergeBlocks_sorted _ _ hAs (sortBlocks_sorted hbnd)
    have hcm : ∀ x, x ∈ cb ↔ x ∈ Ab ∨ x ∈ bps := by
      intro x
      rw [hcb, mergeBlocks_mem, (sortBlocks_perm bps).mem_iff]
    have hbv : ∀ x ∈ bps, Valid (nb is1) x := by
      intro x hx
      obtain ⟨y, hy, rfl⟩ := List.mem_map.1 hx
      obtain ⟨o, ho, rfl⟩ := List.mem_map.1 hy
      exact hs.valid (hB.valid o ho)
    have hcv : ∀ x ∈ cb, Valid (nb is1) x := by
      intro x hx
      rcases (hcm x).1 hx with hx | hx
      · obtain ⟨o, ho, rfl⟩ := List.mem_map.1 hx; exact hA.valid o ho
      · exact hbv x hx
    -- a block of `B` seen from `A` is in the merged list
    have hBin : ∀ b, Valid (nb is1) b → b ∉ cb → ∀ u, elem B is2 (pk P b) u = 0 := by
      intro b hb hn u
      apply elem_zero_of_notMem hB (h.valid hb)
      intro hm
      apply hn
      rw [hcm]
      right
      refine List.mem_map.2 ⟨pk P b, hm, ?_⟩
      exact pk_pk hQ2 hQ3.symm hQ5 (by rw [valid_length hb, hQ3, h.len1]; simp [nb])
    have hunf : plusEq fuel P is1 is2 alpha A B =
        if A.offsets.length < cb.length then
          match ofBlocks (K := K) is1 cb with
          | .ok nA =>
            (add fuel (Permutation.ident is1.length) is1 is1 1 nA A).bind fun nA' =>
              add fuel P is1 is2 alpha nA' B
          | _ => some .ub
        else add fuel P is1 is2 alpha A B := by
      unfold plusEq
      rw [if_neg hB0, if_neg hne, hQ1]
      dsimp only
      rw [hpa]
      rfl
    rw [hunf]
    by_cases hlt : A.offsets.length < cb.length
    · rw [if_pos hlt]
      obtain ⟨l, e, hl1, hl2, hl3⟩ := uoLoop_wf hcs hcv
      have hob : ofBlocks (K := K) is1 cb = .ok ⟨l, e, fun _ => 0⟩ := by
        unfold ofBlocks
        rw [if_neg hne, hl1]
        rfl
      rw [hob]
      dsimp only
      have hsize : e ≤ A.size + B.size := by
        have h1 := tile_size hl3.tile
        have h2 := tile_size hA.tile
        have h3 := tile_size hB.tile
        rw [hl2] at h1
        have h4 := mergeBlocks_sum (QDense.bdim is1) Ab (sortBlocks bps)
        have h5 : ((sortBlocks bps).map (QDense.bdim is1)).sum = (bps.map (QDense.bdim is1)).sum :=
          ((sortBlocks_perm bps).map _).sum_eq
        have h6 : bps.map (QDense.bdim is1) = (B.offsets.map (·.block)).map (QDense.bdim is2) := by
          rw [hbps, List.map_map]
          apply List.map_congr_left
          intro x hx
          obtain ⟨o, ho, rfl⟩ := List.mem_map.1 hx
          exact hs.bdim (hB.valid o ho)
        rw [h5, h6, ← hcb] at h4
        rw [← hAb] at h2
        omega
      obtain ⟨A1, g1, g2, g3, g4⟩ := add_spec hne (match_ident is1) hpos
        (A := ⟨l, e, fun _ => (0 : K)⟩) hl3 hA 1 (fuel := fuel) (by show e < fuel; omega)
        (by show (e : Int) ≤ offMax; omega)
      rw [g1]
      have hA1 : WF is1 A1.offsets A1.size := by rw [g2, g3]; exact hl3
      have hs1 : A1.size = e := g3
      obtain ⟨A', k1, k2, k3, k4⟩ := add_spec hne h hpos hA1 hB alpha (fuel := fuel) (by omega)
        (by rw [hs1]; omega)
      refine ⟨A', k1, by rw [k2, k3]; exact hA1, ?_⟩
      intro b u hb hu
      have hbl : b.length = is1.length := by rw [valid_length hb]; simp [nb]
      have hul : u.length = is1.length := by rw [valid_length hu, bext_length hb]
      have he0 : elem (⟨l, e, fun _ => (0 : K)⟩ : QDense K) is1 b u = 0 := by
        unfold elem; split <;> rfl
      have hl2' : A1.offsets.map (·.block) = cb := by rw [g2]; exact hl2
      rw [k4 b u hb hu, g4 b u hb hu, he0, pk_ident hbl, pk_ident hul, hl2']
      show (if b ∈ cb then (if b ∈ l.map (·.block) then _ else _) + _ else
        if b ∈ l.map (·.block) then _ else _) = _
      rw [hl2]
      by_cases hbc : b ∈ cb
      · rw [if_pos hbc, if_pos hbc]; ring
      · rw [if_neg hbc, if_neg hbc, hBin b hb hbc,
          elem_zero_of_notMem hA hb (fun hm => hbc ((hcm b).2 (Or.inl hm)))]
        ring
    · rw [if_neg hlt]
      have hsub : ∀ b, b ∈ cb → b ∈ Ab := by
        have h1 : Ab ⊆ cb := fun x hx => (hcm x).2 (Or.inl hx)
        have hl : cb.length ≤ Ab.length := by rw [hAb, List.length_map]; omega
        have := (List.subperm_of_subset hAs.nodup h1).perm_of_length_le hl
        exact fun b hb => this.mem_iff.2 hb
      obtain ⟨A', k1, k2, k3, k4⟩ := add_spec hne h hpos hA hB alpha (fuel := fuel) (by omega) (by omega)
      refine ⟨A', k1, by rw [k2, k3]; exact hA, ?_⟩
      intro b u hb hu
      rw [k4 b u hb hu]
      by_cases hba : b ∈ A.offsets.map (·.block)
      · rw [if_pos hba]
      · rw [if_neg hba, hBin b hb (fun hc => hba (hsub b hc)), mul_zero, add_zero]

/-- **C23.** Adding a multiple of one block-sparse tensor to another is element-wise, whatever the
order of the indices and whichever blocks either has. `ρ` gives a value for every index. -/
theorem C23_daxpy_partial {is1 is2 : IndexSet} (hne : is1 ≠ []) (hkeys : (keys is1).Perm (keys is2))
    (hnd : (keys is1).Nodup)
    (hsec : ∀ I ∈ is1, ∀ J ∈ is2, I.key = J.key → I.qns.map (·.2) = J.qns.map (·.2))
    (hpos : ∀ I ∈ is1, ∀ s ∈ I.qns.map (·.2), 0 < s)
    {A B : QDense K} (hA : WF is1 A.offsets A.size) (hB : WF is2 B.offsets B.size)
    (alpha : K) {fuel : Nat} (hf : A.size + B.size < fuel)
    (hmax : ((A.size + B.size : Nat) : Int) ≤ offMax) :
    ∃ A', daxpy fuel is1 is2 alpha A B = some (.ok A') ∧ WF is1 A'.offsets A'.size ∧
      ∀ ρ : Nat × Int × Nat × List Verif.TagSet.Tag → Nat,
        (∀ I ∈ is1, ρ I.key < (I.qns.map (·.2)).sum) →
        ∃ x y, getElt A is1 (is1.map fun I => ρ I.key) = .ok x ∧
          getElt B is2 (is2.map fun I => ρ I.key) = .ok y ∧
          getElt A' is1 (is1.map fun I => ρ I.key) = .ok (x + alpha * y) := by
  have hlen : is1.length = is2.length := by
    have := hkeys.length_eq; simpa [keys] using this
  unfold daxpy
  rw [if_neg (by simpa using hlen)]
  -- matching
  obtain ⟨P, hP1, hP2, hP3, hP4⟩ := C16_calcPerm (keys is2) (keys is1) hkeys.symm
    (hkeys.nodup_iff.1 hnd)
  have hkg : ∀ (is : IndexSet) (i : Nat), (keys is)[i]? = (is[i]?).map Index.key := fun is i => by
    simp [keys]
  have hmatch : Match P is1 is2 := by
    refine ⟨hP2, by rw [hP3]; simp [keys, hlen], by rw [hP3]; simp [keys], ?_⟩
    intro i d I J hi hI hJ
    have := hP4 i d hi
    rw [hkg, hkg, hI, hJ] at this
    exact (hsec I (List.mem_of_getElem? hI) J (List.mem_of_getElem? hJ) (by simpa using this)).symm
  -- values of the indices
  have hval1 : ∀ ρ : Nat × Int × Nat × List Verif.TagSet.Tag → Nat,
      (∀ I ∈ is1, ρ I.key < (I.qns.map (·.2)).sum) → Valid (dims is1) (is1.map fun I => ρ I.key) := by
    intro ρ hρ
    unfold Valid dims
    rw [List.forall₂_map_left_iff, List.forall₂_map_right_iff, List.forall₂_same]
    exact hρ
  have hval2 : ∀ ρ : Nat × Int × Nat × List Verif.TagSet.Tag → Nat,
      (is2.map fun I => ρ I.key) = pk P (is1.map fun I => ρ I.key) := by
    intro ρ
    apply List.ext_getElem?
    intro i
    by_cases hi : i < P.length
    · have hd := List.getElem?_eq_getElem hi
      obtain ⟨I, J, hI, hJ, _⟩ := hmatch.get hd
      rw [pk_get hd (by simpa using (List.getElem?_eq_some_iff.1 hI).1)]
      have := hP4 i _ hd
      rw [hkg, hkg, hI, hJ] at this
      have hk : I.key = J.key := by simpa using this
      simp [hI, hJ, hk]
    · rw [List.getElem?_eq_none (by rw [List.length_map, ← hmatch.len2]; omega),
        List.getElem?_eq_none (by rw [pk_length]; omega)]
  by_cases hB0 : B.offsets.length = 0
  · rw [if_pos hB0]
    refine ⟨A, rfl, hA, ?_⟩
    intro ρ hρ
    have hv := hval1 ρ hρ
    obtain ⟨b, u, hb, hu, e⟩ := exists_glue hv
    rw [hval2, e, ← hmatch.glue hb hu]
    have hu2 : Valid (bext is2 (pk P b)) (pk P u) := by
      rw [hmatch.bext hb]
      exact Match.valid_pk hmatch.perm (by rw [bext_length hb, hmatch.len1]) hu
    refine ⟨_, _, getElt_glue hA hb hu, getElt_glue hB (hmatch.valid hb) hu2, ?_⟩
    have hoff : B.offsets = [] := List.length_eq_zero_iff.1 hB0
    rw [getElt_glue hA hb hu, elem_zero_of_notMem hB (hmatch.valid hb) (by simp [hoff]), mul_zero,
      add_zero]
  · rw [if_neg hB0]
    obtain ⟨A', g1, g2, g3⟩ := plusEq_spec hne hmatch hpos hA hB alpha hf hmax
    refine ⟨A', ?_, g2, ?_⟩
    · have : Permutation.calcPerm (is2.map Index.key) (is1.map Index.key) = .ok P := hP1
      rw [this]
      exact g1
    · intro ρ hρ
      have hv := hval1 ρ hρ
      obtain ⟨b, u, hb, hu, e⟩ := exists_glue hv
      rw [hval2, e, ← hmatch.glue hb hu]
      have hu2 : Valid (bext is2 (pk P b)) (pk P u) := by
        rw [hmatch.bext hb]
        exact Match.valid_pk hmatch.perm (by rw [bext_length hb, hmatch.len1]) hu
      refine ⟨_, _, getElt_glue hA hb hu, getElt_glue hB (hmatch.valid hb) hu2, ?_⟩
      rw [getElt_glue g2 hb hu, g3 b u hb hu]

/-- **C23, order 0.** Two order-0 tensors, the left one with an element: the elements are added. -/
theorem C23_order0_partial {A B : QDense K} (hA : WF [] A.offsets A.size) (hB : WF [] B.offsets B.size)
    (hne : A.offsets ≠ []) (alpha : K) (fuel : Nat) :
    ∃ A' x y, daxpy fuel [] [] alpha A B = some (.ok A') ∧ WF [] A'.offsets A'.size ∧
      getElt A [] [] = .ok x ∧ getElt B [] [] = .ok y ∧ getElt A' [] [] = .ok (x + alpha * y) := by
  rcases wf_order_zero hA with ⟨h, _⟩ | ⟨ha, ha'⟩
  · exact absurd h hne
  · rcases wf_order_zero hB with ⟨hb, hb'⟩ | ⟨hb, hb'⟩
    · refine ⟨A, A.data 0, 0, ?_, hA, ?_, ?_, ?_⟩
      · unfold daxpy; simp [hb]
      · simp [getElt, getEltBlockOffset, ha']
      · simp [getElt, getEltBlockOffset, hb']
      · simp [getElt, getEltBlockOffset, ha']
    · have hp : Permutation.calcPerm (α := Nat × Int × Nat × List Verif.TagSet.Tag) [] [] = .ok [] := rfl
      refine ⟨{ A with data := fun a => if 0 ≤ a ∧ a < A.size then A.data a + alpha * B.data a else A.data a },
        A.data 0, B.data 0, ?_, hA, ?_, ?_, ?_⟩
      · unfold daxpy
        simp only [List.map_nil, hb, hp, plusEq, hb', add]
        rfl
      · simp [getElt, getEltBlockOffset, ha']
      · simp [getElt, getEltBlockOffset, hb']
      · simp [getElt, getEltBlockOffset, ha']

end

/-- The order-0 result of a contraction without matching blocks (qutil.h:224-247): no block, no
storage. Reading it gives zero; adding a tensor to it leaves it empty: the sum `0 + 5` reads `0`. -/
theorem C23_order0_counterexample :
    ∃ A B A' : QDense Int, WF [] A.offsets A.size ∧ WF [] B.offsets B.size ∧
      daxpy 10 [] [] 1 A B = some (.ok A') ∧ getElt A [] [] = .ok 0 ∧ getElt B [] [] = .ok 5 ∧
      getElt A' [] [] = .ok 0 := by
  refine ⟨⟨[], 0, fun _ => 0⟩, ⟨[⟨[], 0⟩], 1, fun _ => 5⟩, ⟨[], 0, _⟩,
    ⟨List.Pairwise.nil, by simp, rfl⟩, ⟨?_, ?_, rfl, rfl⟩, rfl, rfl, rfl, rfl⟩
  · unfold SortedOff; simp
  · intro o ho
    have : o = ⟨[], 0⟩ := by simpa using ho
    subst this; exact List.Forall₂.nil

/-- The order-0 case with complex left and real right storage: the left view has two numbers, the
right one only one, and the second is read past the end. -/
theorem C23_mixed_order0_counterexample (re im x alpha : Int) :
    addReals alpha [re, im] [x] = .ub ∧
      ∀ (as bs : List Int), as.length = bs.length →
        addReals alpha as bs = .ok (List.zipWith (fun a b => a + alpha * b) as bs) := by
  refine ⟨rfl, ?_⟩
  intro as
  induction as with
  | nil => intro bs _; rfl
  | cons a as ih =>
    intro bs h
    cases bs with
    | nil => simp at h
    | cons b bs => simp [addReals, ih bs (by simpa using h)]

/-! ## Examples -/

/-- Quantum number `Sz = v`. -/
def exQ (v : Int) : Verif.QN.QN :=
  [⟨Verif.TagSet.Tag.ofBytes [83, 122], v, 1⟩, Verif.QN.QNum.none, Verif.QN.QNum.none, Verif.QN.QNum.none]

/-- An index with sectors `Sz = 1` of size 2 and `Sz = -1` of size 1. -/
def exI (id : Nat) (dir : Int) : Index := ⟨id, 3, dir, ⟨List.replicate 4 Verif.TagSet.Tag.empty, 0, 0⟩, [(exQ 1, 2), (exQ (-1), 1)]⟩

theorem exQ_ok (v : Int) (hv : v = 1 ∨ v = -1 ∨ v = 0) : Verif.QN.IsQN (fun _ => 1) (exQ v) := by
  refine ⟨[⟨Verif.TagSet.Tag.ofBytes [83, 122], v, 1⟩], ?_⟩
  rcases hv with rfl | rfl | rfl
  all_goals
    exact ⟨by decide, by decide, by unfold Verif.QN.NSorted; decide, by decide, by decide, by decide⟩

theorem exSectors : SectorsOK (fun _ => 1) [Verif.TagSet.Tag.ofBytes [83, 122]] [exI 1 1, exI 2 (-1)] := by
  refine ⟨by decide, ?_⟩
  intro I hI q hq
  have hI' : I = exI 1 1 ∨ I = exI 2 (-1) := by simpa using hI
  have hq' : q = (exQ 1, 2) ∨ q = (exQ (-1), 1) := by
    rcases hI' with rfl | rfl <;> simpa [exI] using hq
  rcases hq' with rfl | rfl
  · exact ⟨exQ_ok _ (by simp), by decide⟩
  · exact ⟨exQ_ok _ (by simp), by decide⟩

/-- The hypotheses of `C21_ofDiv` hold of a two-index example; blocks (0,0) and (1,1) are listed. -/
example : ∃ d : QDense Int, ofDiv 100 [exI 1 1, exI 2 (-1)] (exQ 0) = some (.ok d) ∧
    WF [exI 1 1, exI 2 (-1)] d.offsets d.size ∧ d.offsets = [⟨[0, 0], 0⟩, ⟨[1, 1], 4⟩] ∧ d.size = 5 := by
  obtain ⟨d, h1, h2, _, _⟩ := C21_ofDiv (K := Int) (is := [exI 1 1, exI 2 (-1)]) (by simp) (by decide)
    exSectors (exQ_ok 0 (by simp)) 100 (by decide) (by decide)
  refine ⟨d, h1, h2, ?_⟩
  have : (ofDiv (K := Int) 100 [exI 1 1, exI 2 (-1)] (exQ 0)).map (fun r => r.map fun d => (d.offsets, d.size))
      = some (.ok ([⟨[0, 0], 0⟩, ⟨[1, 1], 4⟩], 5)) := by decide +kernel
  rw [h1] at this
  simpa [Res.map] using this

/-- Storage of an example with one block. -/
def exD : QDense Int := ⟨[⟨[1, 1], 0⟩], 1, fun _ => 7⟩

theorem exD_wf : WF [exI 1 1, exI 2 (-1)] exD.offsets exD.size := by
  refine ⟨by unfold SortedOff exD; simp, ?_, rfl, rfl⟩
  intro o ho
  have : o = ⟨[1, 1], 0⟩ := by simpa [exD] using ho
  subst this
  exact List.Forall₂.cons (by decide) (List.Forall₂.cons (by decide) List.Forall₂.nil)

/-- `C22_getset` on an example: writing into the absent block (0,0) inserts it in front. -/
example : ((Res.foldM (fun s p => setElt s [exI 1 1, exI 2 (-1)] p.1 p.2) exD
    [([1, 0], 3), ([2, 2], 4)]).bind fun d => .ok (d.offsets, getElt d [exI 1 1, exI 2 (-1)] [1, 0],
      getElt d [exI 1 1, exI 2 (-1)] [2, 2], getElt d [exI 1 1, exI 2 (-1)] [0, 1])) =
    .ok ([⟨[0, 0], 0⟩, ⟨[1, 1], 4⟩], .ok 3, .ok 4, .ok 0) := by decide +kernel

example : ∀ p ∈ ([([1, 0], 3), ([2, 2], 4)] : List (List Nat × Int)),
    Valid ([exI 1 1, exI 2 (-1)].map fun I => (I.qns.map (·.2)).sum) p.1 := by
  intro p hp
  have : p = ([1, 0], 3) ∨ p = ([2, 2], 4) := by simpa using hp
  rcases this with rfl | rfl <;>
    exact List.Forall₂.cons (by decide) (List.Forall₂.cons (by decide) List.Forall₂.nil)

/-- The hypotheses of `C23_daxpy_partial` hold with the indices in the other order. -/
example : ∃ A', daxpy 100 [exI 1 1, exI 2 (-1)] [exI 2 (-1), exI 1 1] 3 exD exD = some (.ok A') ∧
    getElt A' [exI 1 1, exI 2 (-1)] [2, 2] = .ok 28 := by
  have hB : WF [exI 2 (-1), exI 1 1] exD.offsets exD.size := by
    refine ⟨by unfold SortedOff exD; simp, ?_, rfl, rfl⟩
    intro o ho
    have : o = ⟨[1, 1], 0⟩ := by simpa [exD] using ho
    subst this
    exact List.Forall₂.cons (by decide) (List.Forall₂.cons (by decide) List.Forall₂.nil)
  obtain ⟨A', h1, _, h3⟩ := C23_daxpy_partial (is1 := [exI 1 1, exI 2 (-1)]) (is2 := [exI 2 (-1), exI 1 1])
    (by simp) (List.Perm.swap _ _ _) (by decide) (by decide) (by decide) exD_wf hB 3 (fuel := 100)
    (by decide) (by decide)
  refine ⟨A', h1, ?_⟩
  obtain ⟨x, y, hx, hy, hxy⟩ := h3 (fun _ => 2) (by decide)
  have e1 : getElt exD [exI 1 1, exI 2 (-1)] [2, 2] = .ok 7 := by decide +kernel
  have e2 : getElt exD [exI 2 (-1), exI 1 1] [2, 2] = .ok 7 := by decide +kernel
  simp only [List.map_cons, List.map_nil] at hx hy hxy
  rw [e1] at hx; rw [e2] at hy
  cases hx; cases hy
  exact hxy

end Verif.QDense
