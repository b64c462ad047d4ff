import Verif.QDense.Insert
import Verif.Index.Lemmas
import Verif.Tensor.ContractLemmas2

/-!
# Addition of block-sparse tensors: helper lemmas for C23
-/

namespace Verif.QDense

open Verif.Index (Index IndexSet)
open Verif.Tensor
open Verif.Tensor.Permutation (IsPerm)

/-! ## Permuted lists -/

/-- The entries of `l` at the positions `P`. -/
def pk (P : List Nat) (l : List Nat) : List Nat := P.map fun i => l.getD i 0

theorem pick_ok {P l : List Nat} (h : ∀ i ∈ P, i < l.length) : pick l P = .ok (pk P l) := by
  induction P with
  | nil => rfl
  | cons i P ih =>
    have hi := h i (by simp)
    simp only [pick, List.getElem?_eq_getElem hi, ih (fun j hj => h j (by simp [hj])), Res.bind_ok, pk,
      List.map_cons, List.getD_eq_getElem?_getD]
    rfl

theorem pk_get {P l : List Nat} {i d : Nat} (hi : P[i]? = some d) (hd : d < l.length) :
    (pk P l)[i]? = l[d]? := by
  unfold pk
  rw [List.getElem?_map, hi]
  simp [List.getD_eq_getElem?_getD, List.getElem?_eq_getElem hd]

theorem pk_length (P l : List Nat) : (pk P l).length = P.length := by simp [pk]

theorem pk_inj {P : List Nat} (hP : IsPerm P) {a b : List Nat} (ha : a.length = P.length)
    (hb : b.length = P.length) (h : pk P a = pk P b) : a = b := by
  apply get_of_perm hP ha hb
  intro n d hd
  have hlt : d < P.length := hP.lt (List.mem_iff_getElem?.2 ⟨n, hd⟩)
  rw [← pk_get hd (by omega), h, pk_get hd (by omega)]

/-- `Q` undoes `P`. -/
theorem pk_pk {P Q : List Nat} (hP : IsPerm P) (hl : Q.length = P.length)
    (h : ∀ (n d : Nat), P[n]? = some d → Q[d]? = some n) {l : List Nat} (hn : l.length = P.length) :
    pk P (pk Q l) = l := by
  apply List.ext_getElem?
  intro i
  by_cases hi : i < P.length
  · have hd := List.getElem?_eq_getElem hi
    have hlt : P[i] < P.length := hP.lt (List.getElem_mem hi)
    rw [pk_get hd (by rw [pk_length]; omega), pk_get (h _ _ hd) (by omega)]
  · rw [List.getElem?_eq_none (by rw [pk_length]; omega), List.getElem?_eq_none (by omega)]

/-! ## Matching index sets -/

/-- The `i`th index of the second set is the `P[i]`th of the first, as far as sectors go. -/
structure Match (P : List Nat) (is1 is2 : IndexSet) : Prop where
  perm : IsPerm P
  len1 : P.length = is1.length
  len2 : P.length = is2.length
  szs : ∀ (i d : Nat) (I J : Index), P[i]? = some d → is1[d]? = some I → is2[i]? = some J →
    QDense.szs J = QDense.szs I

theorem valid_iff {ds i : List Nat} : Valid ds i ↔ i.length = ds.length ∧
    ∀ (n x d : Nat), i[n]? = some x → ds[n]? = some d → x < d := by
  constructor
  · intro h
    refine ⟨valid_length h, ?_⟩
    induction h with
    | nil => intro n x d h; simp at h
    | cons h1 h2 ih =>
      intro n x d hx hd
      cases n with
      | zero => simp at hx hd; subst hx; subst hd; exact h1
      | succ n => exact ih n x d (by simpa using hx) (by simpa using hd)
  · rintro ⟨h1, h2⟩
    induction ds generalizing i with
    | nil => have : i = [] := by simpa using h1
             subst this; exact List.Forall₂.nil
    | cons d ds ih =>
      cases i with
      | nil => simp at h1
      | cons x i =>
        refine List.Forall₂.cons (h2 0 x d (by simp) (by simp)) (ih (by simpa using h1) ?_)
        intro n x' d' hx hd
        exact h2 (n + 1) x' d' (by simpa using hx) (by simpa using hd)

theorem Match.get {P : List Nat} {is1 is2 : IndexSet} (h : Match P is1 is2) {i d : Nat}
    (hi : P[i]? = some d) : ∃ I J, is1[d]? = some I ∧ is2[i]? = some J ∧ QDense.szs J = QDense.szs I := by
  have hlt : d < is1.length := by
    rw [← h.len1]; exact h.perm.lt (List.mem_iff_getElem?.2 ⟨i, hi⟩)
  have hlt2 : i < is2.length := by
    rw [← h.len2]; exact (List.getElem?_eq_some_iff.1 hi).1
  exact ⟨is1[d], is2[i], List.getElem?_eq_getElem hlt, List.getElem?_eq_getElem hlt2,
    h.szs i d _ _ hi (List.getElem?_eq_getElem hlt) (List.getElem?_eq_getElem hlt2)⟩

theorem Match.valid {P : List Nat} {is1 is2 : IndexSet} (h : Match P is1 is2) {a : Block}
    (ha : Valid (nb is1) a) : Valid (nb is2) (pk P a) := by
  obtain ⟨h1, h2⟩ := valid_iff.1 ha
  refine valid_iff.2 ⟨by rw [pk_length, h.len2]; simp [nb], ?_⟩
  intro i x k hx hk
  have hi : i < P.length := by
    have := (List.getElem?_eq_some_iff.1 hx).1; rwa [pk_length] at this
  have hd := List.getElem?_eq_getElem hi
  obtain ⟨I, J, hI, hJ, hs⟩ := h.get hd
  have hlt : P[i] < is1.length := (List.getElem?_eq_some_iff.1 hI).1
  rw [pk_get hd (by rw [h1]; simpa [nb] using hlt)] at hx
  have hk' : k = J.nblock := by
    simp only [nb, List.getElem?_map, hJ, Option.map_some, Option.some.injEq] at hk
    exact hk.symm
  have := h2 P[i] x I.nblock hx (by simp [nb, hI])
  rw [hk', ← szs_length, hs, szs_length]; exact this

theorem bext_get {is : IndexSet} {b : Block} {n x : Nat} {I : Index} (hI : is[n]? = some I)
    (hx : b[n]? = some x) : (bext is b)[n]? = some (bsize I x) := by
  simp [bext, List.getElem?_zipWith, hI, hx]

theorem Match.bext {P : List Nat} {is1 is2 : IndexSet} (h : Match P is1 is2) {a : Block}
    (ha : Valid (nb is1) a) : bext is2 (pk P a) = pk P (QDense.bext is1 a) := by
  obtain ⟨h1, h2⟩ := valid_iff.1 ha
  have hal : a.length = is1.length := by rw [h1]; simp [nb]
  apply List.ext_getElem?
  intro i
  by_cases hi : i < P.length
  · have hd := List.getElem?_eq_getElem hi
    obtain ⟨I, J, hI, hJ, hs⟩ := h.get hd
    have hlt : P[i] < is1.length := (List.getElem?_eq_some_iff.1 hI).1
    have hx := List.getElem?_eq_getElem (l := a) (i := P[i]) (by omega)
    rw [pk_get hd (by rw [bext_length ha]; exact hlt), bext_get hI hx,
      bext_get hJ (by rw [pk_get hd (by omega)]; exact hx)]
    unfold bsize; rw [hs]
  · rw [List.getElem?_eq_none (by rw [bext_length (h.valid ha), ← h.len2]; omega),
      List.getElem?_eq_none (by rw [pk_length]; omega)]

theorem Match.valid_pk {P : List Nat} (hP : IsPerm P) {ds u : List Nat} (hl : ds.length = P.length)
    (hu : Valid ds u) : Valid (pk P ds) (pk P u) := by
  obtain ⟨h1, h2⟩ := valid_iff.1 hu
  refine valid_iff.2 ⟨by simp [pk_length], ?_⟩
  intro i x k hx hk
  have hi : i < P.length := by
    have := (List.getElem?_eq_some_iff.1 hx).1; rwa [pk_length] at this
  have hd := List.getElem?_eq_getElem hi
  have hlt : P[i] < P.length := hP.lt (List.getElem_mem hi)
  rw [pk_get hd (by omega)] at hx hk
  exact h2 _ _ _ hx hk

theorem glue_length {is : IndexSet} {b : Block} {u : List Nat} (hb : Valid (nb is) b)
    (hu : Valid (bext is b) u) : (glue is b u).length = is.length := by
  have := valid_length (glue_valid hb hu); simpa [dims] using this

theorem glue_get {is : IndexSet} {b : Block} {u : List Nat} {n x y : Nat} {I : Index}
    (hI : is[n]? = some I) (hx : b[n]? = some x) (hy : u[n]? = some y) :
    (glue is b u)[n]? = some (gl I x y) := by
  induction is generalizing b u n with
  | nil => simp at hI
  | cons J is ih =>
    cases b with
    | nil => simp at hx
    | cons x' b =>
      cases u with
      | nil => simp at hy
      | cons y' u =>
        simp only [glue]
        cases n with
        | zero => simp at hI hx hy; subst hI; subst hx; subst hy; simp
        | succ n =>
          simp only [List.getElem?_cons_succ] at hI hx hy ⊢
          exact ih hI hx hy

theorem Match.glue {P : List Nat} {is1 is2 : IndexSet} (h : Match P is1 is2) {a : Block} {u : List Nat}
    (ha : Valid (nb is1) a) (hu : Valid (QDense.bext is1 a) u) :
    glue is2 (pk P a) (pk P u) = pk P (QDense.glue is1 a u) := by
  have hal : a.length = is1.length := by rw [valid_length ha]; simp [nb]
  have hul : u.length = is1.length := by rw [valid_length hu, bext_length ha]
  have hu2 : Valid (QDense.bext is2 (pk P a)) (pk P u) := by
    rw [h.bext ha]
    exact Match.valid_pk h.perm (by rw [bext_length ha, h.len1]) hu
  apply List.ext_getElem?
  intro i
  by_cases hi : i < P.length
  · have hd := List.getElem?_eq_getElem hi
    obtain ⟨I, J, hI, hJ, hs⟩ := h.get hd
    have hlt : P[i] < is1.length := (List.getElem?_eq_some_iff.1 hI).1
    have hx := List.getElem?_eq_getElem (l := a) (i := P[i]) (by omega)
    have hy := List.getElem?_eq_getElem (l := u) (i := P[i]) (by omega)
    rw [pk_get hd (by rw [glue_length ha hu]; exact hlt), glue_get hI hx hy,
      glue_get hJ (by rw [pk_get hd (by omega)]; exact hx) (by rw [pk_get hd (by omega)]; exact hy)]
    unfold gl; rw [hs]
  · rw [List.getElem?_eq_none (by rw [glue_length (h.valid ha) hu2, ← h.len2]; omega),
      List.getElem?_eq_none (by rw [pk_length]; omega)]

theorem match_ident (is : IndexSet) : Match (Permutation.ident is.length) is is := by
  refine ⟨?_, by simp [Permutation.ident], by simp [Permutation.ident], ?_⟩
  · unfold IsPerm Permutation.ident; simp
  · intro i d I J hi hI hJ
    have : i = d := by
      have h1 := (List.getElem?_eq_some_iff.1 hi)
      obtain ⟨h1, h2⟩ := h1
      simpa [Permutation.ident] using h2
    subst this
    rw [hI] at hJ; cases hJ; rfl

theorem pk_ident {n : Nat} {l : List Nat} (h : l.length = n) : pk (Permutation.ident n) l = l := by
  apply List.ext_getElem?
  intro i
  by_cases hi : i < n
  · have : (Permutation.ident n)[i]? = some i := by simp [Permutation.ident, hi]
    rw [pk_get this (by omega)]
  · rw [List.getElem?_eq_none (by rw [pk_length]; simp [Permutation.ident]; omega),
      List.getElem?_eq_none (by omega)]

theorem labelPerm_pos {P : List Nat} (hP : IsPerm P) :
    LabelPerm P (P.map (fun (i : Nat) => (i : Int))) ((List.range P.length).map (fun (i : Nat) => (i : Int))) := by
  refine ⟨hP, by simp, by simp, ?_⟩
  intro i d hd
  have hlt : d < P.length := hP.lt (List.mem_iff_getElem?.2 ⟨i, hd⟩)
  simp [hd, hlt]

theorem range_map_get {l : List Nat} {n : Nat} (h : l.length = n) :
    ((List.range n).map (fun (i : Nat) => (i : Int))).map (fun (z : Int) => l.getD z.toNat 0) = l := by
  apply List.ext_getElem?
  intro i
  by_cases hi : i < n
  · simp [hi, List.getD_eq_getElem?_getD, List.getElem?_eq_getElem (l := l) (i := i) (by omega)]
  · rw [List.getElem?_eq_none (by simp; omega), List.getElem?_eq_none (by omega)]

theorem pk_map_get (P l : List Nat) :
    (P.map (fun (i : Nat) => (i : Int))).map (fun (z : Int) => l.getD z.toNat 0) = pk P l := by
  simp [pk, List.map_map, Function.comp_def]

/-! ## One block -/

section
variable {K : Type*} [CommRing K]

/-- All sectors have positive size. -/
def PosSectors (is : IndexSet) : Prop := ∀ I ∈ is, ∀ s ∈ szs I, 0 < s

theorem bext_pos {is : IndexSet} (hp : PosSectors is) {b : Block} (hb : Valid (nb is) b) :
    ∀ x ∈ bext is b, 0 < x := by
  induction is generalizing b with
  | nil => simp [bext]
  | cons I is ih =>
    simp only [nb, List.map_cons] at hb
    cases hb with
    | cons h1 h2 =>
      rename_i x bs
      intro y hy
      simp only [bext, List.zipWith_cons_cons, List.mem_cons] at hy
      rcases hy with rfl | hy
      · apply hp I (by simp)
        unfold bsize
        have hx : x < (szs I).length := by rw [szs_length]; exact h1
        rw [List.getD_eq_getElem?_getD, List.getElem?_eq_getElem hx]
        exact List.getElem_mem hx
      · exact ih (fun J hJ => hp J (by simp [hJ])) h2 y hy

theorem elem_congr {d d' : QDense K} (ho : d'.offsets = d.offsets) (hs : d'.size = d.size) {is : IndexSet}
    {b : Block} {u : List Nat} {x : K}
    (h : ∀ o, getBlock d b = some o → d'.data ((o + rank (bext is b) u : Nat) : Int) = x)
    (hn : getBlock d b = none → x = 0) : elem d' is b u = x := by
  have : getBlock d' b = getBlock d b := by unfold getBlock; rw [ho, hs]
  unfold elem
  rw [this]
  cases hg : getBlock d b with
  | none => simp [hn hg]
  | some o => exact h o hg

theorem addBlock_spec {P : List Nat} {is1 is2 : IndexSet} (h : Match P is1 is2) (hpos : PosSectors is1)
    {A B : QDense K} (hA : WF is1 A.offsets A.size) (hB : WF is2 B.offsets B.size) (alpha : K)
    {fuel : Nat} (hf : A.size < fuel) (hmax : (A.size : Int) ≤ offMax) {aio : BlOf}
    (ha : aio ∈ A.offsets) :
    ∃ A', addBlock fuel P is1 is2 alpha B A aio = some (.ok A') ∧ A'.offsets = A.offsets ∧
      A'.size = A.size ∧
      ∀ b u, Valid (nb is1) b → Valid (bext is1 b) u →
        elem A' is1 b u = if b = aio.block then elem A is1 b u + alpha * elem B is2 (pk P b) (pk P u)
          else elem A is1 b u := by
  have hv := hA.valid aio ha
  have hal : aio.block.length = P.length := by rw [valid_length hv, h.len1]; simp [nb]
  have hp : pick aio.block P = .ok (pk P aio.block) :=
    pick_ok (fun i hi => by rw [hal]; exact h.perm.lt hi)
  have hb := hA.tile.bounds aio ha
  unfold addBlock
  rw [hp]
  dsimp only
  cases hg : getBlock B (pk P aio.block) with
  | none =>
    refine ⟨A, rfl, rfl, rfl, ?_⟩
    intro b u hb hu
    by_cases he : b = aio.block
    · rw [if_pos he, he]
      have : elem B is2 (pk P aio.block) (pk P u) = 0 := by unfold elem; rw [hg]
      rw [this, mul_zero, add_zero]
    · rw [if_neg he]
  | some boff =>
    dsimp only
    rw [blockExtents_ok hv, blockExtents_ok (h.valid hv), h.bext hv]
    dsimp only
    have hlen : (bext is1 aio.block).length = P.length := by rw [bext_length hv, h.len1]
    have hext := range_map_get (l := bext is1 aio.block) hlen
    have hpr : (bext is1 aio.block).prod ≤ A.size := by have := hb.2; unfold bdim at this; omega
    obtain ⟨V, hV, m', hm, hval, hout⟩ := runTransform_perm (fun (v2 v1 : K) => v1 + alpha * v2)
      (fun (z : Int) => (bext is1 aio.block).getD z.toNat 0) (labelPerm_pos h.perm)
      (by
        intro x hx
        obtain ⟨i, hi, rfl⟩ := List.mem_map.1 hx
        have hi' : i < (bext is1 aio.block).length := by rw [hlen]; simpa using hi
        apply bext_pos hpos hv
        simp only [Int.toNat_natCast, List.getD_eq_getElem?_getD, List.getElem?_eq_getElem hi']
        exact List.getElem_mem hi')
      (by rw [hext]; omega) fuel (by rw [hext]; omega)
      (fun a => B.data (boff + a)) (fun a => A.data (aio.offset + a))
    rw [hext] at hm hval hout
    rw [pk_map_get] at hV hval
    rw [hV]
    dsimp only
    rw [hm]
    refine ⟨_, rfl, rfl, rfl, ?_⟩
    intro b u hbv hu
    refine elem_congr (d := A) (d' := { A with data := fun a => m' (a - aio.offset) }) rfl rfl ?_ ?_
    · intro o ho
      have hmem := getBlock_some hA hbv ho
      have hr := rank_lt hu
      dsimp only
      by_cases he : b = aio.block
      · subst he
        have : (⟨aio.block, o⟩ : BlOf) = aio := hA.block_inj hmem ha rfl
        have ho' : o = aio.offset := by rw [← this]
        subst ho'
        rw [if_pos rfl]
        have hul : u.length = P.length := by rw [valid_length hu, hlen]
        have hv' := hval (fun (z : Int) => u.getD z.toNat 0) (by
          intro x hx
          obtain ⟨i, hi, rfl⟩ := List.mem_map.1 hx
          have hi' : i < P.length := by simpa using hi
          have h1 := List.getElem?_eq_getElem (l := u) (i := i) (by omega)
          have h2 := List.getElem?_eq_getElem (l := bext is1 aio.block) (i := i) (by omega)
          have := (valid_iff.1 hu).2 i _ _ h1 h2
          simpa [List.getD_eq_getElem?_getD, h1, h2] using this)
        rw [range_map_get hul, pk_map_get] at hv'
        have e1 : ((aio.offset + rank (bext is1 aio.block) u : Nat) : Int) - aio.offset
            = (rank (bext is1 aio.block) u : Nat) := by push_cast; ring
        rw [e1, hv']
        unfold elem
        rw [ho, hg, h.bext hv]
        push_cast
        rfl
      · rw [if_neg he]
        have hd := hA.disjoint hmem ha (by intro e; exact he (by rw [← e]))
        unfold bdim at hd
        dsimp only at hd
        have hr2 : rank (bext is1 b) u < (bext is1 b).prod := hr
        rw [hout]
        · unfold elem
          rw [ho]
          dsimp only
          congr 1
          push_cast; ring
        · omega
    · intro hn
      have hnb : b ≠ aio.block := by
        rintro rfl
        rw [getBlock_mem hA ha] at hn; exact absurd hn (by simp)
      rw [if_neg hnb]
      unfold elem; rw [hn]

theorem addFold_spec {P : List Nat} {is1 is2 : IndexSet} (h : Match P is1 is2) (hpos : PosSectors is1)
    {B : QDense K} (hB : WF is2 B.offsets B.size) (alpha : K) {fuel : Nat} (l : List BlOf)
    {A : QDense K} (hA : WF is1 A.offsets A.size)
    (hf : A.size < fuel) (hmax : (A.size : Int) ≤ offMax) (hl : ∀ o ∈ l, o ∈ A.offsets)
    (hnd : (l.map (·.block)).Nodup) :
    ∃ A', runFold (addBlock fuel P is1 is2 alpha B) A l = some (.ok A') ∧ A'.offsets = A.offsets ∧
      A'.size = A.size ∧
      ∀ b u, Valid (nb is1) b → Valid (bext is1 b) u →
        elem A' is1 b u = if b ∈ l.map (·.block) then
            elem A is1 b u + alpha * elem B is2 (pk P b) (pk P u)
          else elem A is1 b u := by
  induction l generalizing A with
  | nil => exact ⟨A, rfl, rfl, rfl, by simp⟩
  | cons o l ih =>
    obtain ⟨A1, h1, h2, h3, h4⟩ := addBlock_spec h hpos hA hB alpha hf hmax (hl o (by simp))
    rw [List.map_cons, List.nodup_cons] at hnd
    obtain ⟨A', g1, g2, g3, g4⟩ := ih (A := A1) (by rw [h2, h3]; exact hA) (by rw [h3]; exact hf)
      (by rw [h3]; exact hmax) (by rw [h2]; exact fun x hx => hl x (by simp [hx])) hnd.2
    refine ⟨A', by simp only [runFold, h1]; exact g1, by rw [g2, h2], by rw [g3, h3], ?_⟩
    intro b u hb hu
    rw [g4 b u hb hu, h4 b u hb hu]
    by_cases hbo : b = o.block
    · subst hbo
      rw [if_neg hnd.1, if_pos rfl, if_pos (by simp)]
    · rw [if_neg hbo]
      simp [hbo]

theorem sortedOff_nodup {l : List BlOf} (h : SortedOff l) : (l.map (·.block)).Nodup := by
  rw [List.Nodup, List.pairwise_map]
  refine h.imp ?_
  intro a b hab e
  rw [e, blockLt_irrefl] at hab
  exact absurd hab (by simp)

theorem add_spec {P : List Nat} {is1 is2 : IndexSet} (hne : is1 ≠ []) (h : Match P is1 is2)
    (hpos : PosSectors is1) {A B : QDense K} (hA : WF is1 A.offsets A.size) (hB : WF is2 B.offsets B.size)
    (alpha : K) {fuel : Nat} (hf : A.size < fuel) (hmax : (A.size : Int) ≤ offMax) :
    ∃ A', add fuel P is1 is2 alpha A B = some (.ok A') ∧ A'.offsets = A.offsets ∧
      A'.size = A.size ∧
      ∀ b u, Valid (nb is1) b → Valid (bext is1 b) u →
        elem A' is1 b u = if b ∈ A.offsets.map (·.block) then
            elem A is1 b u + alpha * elem B is2 (pk P b) (pk P u)
          else elem A is1 b u := by
  unfold add
  rw [if_neg hne]
  exact addFold_spec h hpos hB alpha _ hA hf hmax (fun _ h => h) (sortedOff_nodup hA.sorted)

end

/-! ## Merging lists of blocks -/

theorem mergeBlocks_mem (as bs : List Block) (x : Block) :
    x ∈ mergeBlocks as bs ↔ x ∈ as ∨ x ∈ bs := by
  induction as, bs using mergeBlocks.induct with
  | case1 bs => simp [mergeBlocks]
  | case2 as h => cases as <;> simp [mergeBlocks]
  | case3 a as b bs h ih => rw [mergeBlocks, if_pos h, List.mem_cons, ih]; simp; tauto
  | case4 a as b bs h1 h2 ih =>
    rw [mergeBlocks, if_neg h1, if_pos h2, List.mem_cons, ih]; simp; tauto
  | case5 a as b bs h1 h2 ih =>
    rw [mergeBlocks, if_neg h1, if_neg h2, List.mem_cons, ih]
    have : a = b := blockLt_total (by simpa using h2) (by simpa using h1)
    subst this
    simp; tauto

/-- Strictly increasing list of blocks. -/
abbrev SortedB (l : List Block) : Prop := l.Pairwise (fun a b => blockLt a b = true)

theorem mergeBlocks_sorted (as bs : List Block) (ha : SortedB as) (hb : SortedB bs) :
    SortedB (mergeBlocks as bs) := by
  induction as, bs using mergeBlocks.induct with
  | case1 bs => simpa [mergeBlocks] using hb
  | case2 as h => cases as <;> simpa [mergeBlocks] using ha
  | case3 a as b bs h ih =>
    rw [mergeBlocks, if_pos h]
    have hb' := List.pairwise_cons.1 hb
    refine List.pairwise_cons.2 ⟨?_, ih ha hb'.2⟩
    intro x hx
    rcases (mergeBlocks_mem _ _ _).1 hx with hx | hx
    · rcases List.mem_cons.1 hx with rfl | hx
      · exact h
      · exact blockLt_trans h ((List.pairwise_cons.1 ha).1 x hx)
    · exact hb'.1 x hx
  | case4 a as b bs h1 h2 ih =>
    rw [mergeBlocks, if_neg h1, if_pos h2]
    have ha' := List.pairwise_cons.1 ha
    refine List.pairwise_cons.2 ⟨?_, ih ha'.2 hb⟩
    intro x hx
    rcases (mergeBlocks_mem _ _ _).1 hx with hx | hx
    · exact ha'.1 x hx
    · rcases List.mem_cons.1 hx with rfl | hx
      · exact h2
      · exact blockLt_trans h2 ((List.pairwise_cons.1 hb).1 x hx)
  | case5 a as b bs h1 h2 ih =>
    rw [mergeBlocks, if_neg h1, if_neg h2]
    have hab : a = b := blockLt_total (by simpa using h2) (by simpa using h1)
    subst hab
    have ha' := List.pairwise_cons.1 ha
    have hb' := List.pairwise_cons.1 hb
    refine List.pairwise_cons.2 ⟨?_, ih ha'.2 hb'.2⟩
    intro x hx
    rcases (mergeBlocks_mem _ _ _).1 hx with hx | hx
    · exact ha'.1 x hx
    · exact hb'.1 x hx

theorem sortBlocks_perm (l : List Block) : (sortBlocks l).Perm l := List.mergeSort_perm _ _

theorem sortBlocks_le (l : List Block) : (sortBlocks l).Pairwise (fun a b => blockLt b a = false) := by
  have := List.pairwise_mergeSort (le := fun a b => !blockLt b a) (by
    intro a b c h1 h2
    simp only [Bool.not_eq_true'] at *
    rw [Bool.eq_false_iff]
    intro hca
    cases hab : blockLt a b with
    | true =>
      have := blockLt_trans hca hab
      rw [this] at h2; exact absurd h2 (by simp)
    | false =>
      have : a = b := blockLt_total hab h1
      subst this
      rw [hca] at h2; exact absurd h2 (by simp)) (by
    intro a b
    cases hab : blockLt a b with
    | true => simp [blockLt_asymm hab]
    | false => simp) l
  unfold sortBlocks
  simpa using this

theorem sortBlocks_sorted {l : List Block} (h : l.Nodup) : SortedB (sortBlocks l) := by
  have h1 := sortBlocks_le l
  have h2 : (sortBlocks l).Nodup := (sortBlocks_perm l).nodup_iff.2 h
  refine (List.pairwise_and_iff.2 ⟨h1, h2⟩).imp ?_
  rintro a b ⟨h1, h2⟩
  cases hab : blockLt a b with
  | true => rfl
  | false => exact absurd (blockLt_total hab h1) h2

theorem SortedB.nodup {l : List Block} (h : SortedB l) : l.Nodup := by
  refine h.imp ?_
  intro a b hab e
  rw [e, blockLt_irrefl] at hab
  exact absurd hab (by simp)

theorem pickAll_ok {P : List Nat} (l : List Block) (h : ∀ b ∈ l, ∀ i ∈ P, i < b.length) :
    pickAll P l = .ok (l.map (pk P)) := by
  induction l with
  | nil => rfl
  | cons b l ih =>
    simp only [pickAll, pick_ok (h b (by simp)), ih (fun b hb => h b (by simp [hb])), Res.bind_ok,
      List.map_cons]

end Verif.QDense
