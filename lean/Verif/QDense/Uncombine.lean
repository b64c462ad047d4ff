import Verif.QDense.Combine

/-!
# Uncombining

Proofs about `uncombine` of `Combine.lean` (`/repo/itensor/itdata/qcombiner.cc:216-301`) and property C26 for
block-sparse tensors.
-/

namespace Verif.QDense

open Verif.Index (Index IndexSet)
open Verif.Index.IndexSet (keys indexPosition)
open Verif.Tensor
open Verif.Tensor.Range
open Verif.QN (IsQN norm)

section
variable {K : Type*} [CommRing K]

theorem invertOffset_eq (cs : IndexSet) {o : Nat} (h : o < (nb cs).prod) : invertOffset cs o = unrank (nb cs) o := by
  induction cs generalizing o with
  | nil => rfl
  | cons I cs ih =>
    have hI : 0 < I.nblock := by
      rcases Nat.eq_zero_or_pos I.nblock with h0 | h0
      · simp [nb, h0] at h
      · exact h0
    cases cs with
    | nil =>
      simp only [nb, List.map_cons, List.map_nil, List.prod_cons, List.prod_nil, Nat.mul_one] at h
      simp [invertOffset, nb, unrank, Nat.mod_eq_of_lt h]
    | cons J cs =>
      have e : (o - o % I.nblock) / I.nblock = o / I.nblock := by
        have := Nat.div_add_mod o I.nblock
        rw [show o - o % I.nblock = I.nblock * (o / I.nblock) by omega, Nat.mul_div_cancel_left _ hI]
      rw [invertOffset]
      · rw [e, ih (by
          simp only [nb, List.map_cons, List.prod_cons] at h ⊢
          exact Nat.div_lt_of_lt_mul h)]
        rfl
      · simp

/-- Element of the tensor with the combined index, in terms of a multi-index inside a block of the new tensor. -/
def joined (p k start : Nat) (E : List Nat) (u : List Nat) : List Nat :=
  u.take p ++ (start + rank E ((u.drop p).take k)) :: u.drop (p + k)

theorem joined_append {E up uc uq : List Nat} {p k start : Nat} (hp : up.length = p) (hk : uc.length = k) :
    joined p k start E (up ++ uc ++ uq) = up ++ (start + rank E uc) :: uq := by
  subst hp; subst hk
  unfold joined
  rw [List.append_assoc, List.take_left, List.drop_left, List.take_left, ← List.append_assoc,
    show up.length + uc.length = (up ++ uc).length by simp, List.drop_left]

theorem uncombineStep_spec {pre post cs : IndexSet} {c : Index} (hpos : PosSectors (pre ++ cs ++ post))
    {d nd : QDense K} (hd : WF (pre ++ c :: post) d.offsets d.size) (hnd : WF (pre ++ cs ++ post) nd.offsets nd.size)
    {fuel : Nat} (hf : nd.size < fuel) (hmax : (nd.size : Int) ≤ offMax) {bp bc bq : Block} {doff : Nat} {brg : BlockRange}
    (hbp : Valid (nb pre) bp) (hbc : Valid (nb cs) bc) (hbq : Valid (nb post) bq) (hn : brg.block < c.nblock)
    (hio : (⟨bp ++ brg.block :: bq, doff⟩ : BlOf) ∈ d.offsets)
    (hext : brg.extent = bdim cs bc) {no : Nat} (hno : getBlock nd (bp ++ bc ++ bq) = some no) :
    ∃ nd', uncombineStep fuel pre.length cs (pre ++ cs ++ post) (bext (pre ++ c :: post) (bp ++ brg.block :: bq)) d
        ⟨bp ++ brg.block :: bq, doff⟩ nd (rank (nb cs) bc, brg) = some (.ok nd') ∧
      nd'.offsets = nd.offsets ∧ nd'.size = nd.size ∧
      ∀ b u, Valid (nb (pre ++ cs ++ post)) b → Valid (bext (pre ++ cs ++ post) b) u →
        elem nd' (pre ++ cs ++ post) b u =
          if b = bp ++ bc ++ bq then
            elem d (pre ++ c :: post) (bp ++ brg.block :: bq) (joined pre.length cs.length brg.start (bext cs bc) u)
          else elem nd (pre ++ cs ++ post) b u := by
  set A := bext pre bp with hA
  set E := bext cs bc with hE
  set B := bext post bq with hB
  have hlp : bp.length = pre.length := by rw [valid_length hbp]; simp [nb]
  have hlc : bc.length = cs.length := by rw [valid_length hbc]; simp [nb]
  have hlA : A.length = pre.length := bext_length hbp
  have hlE : E.length = cs.length := bext_length hbc
  have hvn : Valid (nb (pre ++ cs ++ post)) (bp ++ bc ++ bq) := by
    simp only [nb, List.map_append]; exact valid_append (valid_append hbp hbc) hbq
  have hen : bext (pre ++ cs ++ post) (bp ++ bc ++ bq) = A ++ E ++ B := by
    rw [bext_append _ _ _ _ (by simp [hlp, hlc]), bext_append _ _ _ _ hlp]
  have hed : bext (pre ++ c :: post) (bp ++ brg.block :: bq) = A ++ bsize c brg.block :: B := by
    rw [bext_append _ _ _ _ hlp]; rfl
  have hEpos : ∀ x ∈ A ++ E ++ B, 0 < x := by rw [← hen]; exact bext_pos hpos hvn
  have hprod : (A ++ E ++ B).prod ≤ nd.size := by
    have h1 := (hnd.tile.bounds _ (getBlock_some hnd hvn hno)).2
    unfold bdim at h1
    dsimp only at h1
    rw [hen] at h1
    omega
  have hG := groupIndsRange_init A E B hEpos
  rw [hlA, hlE] at hG
  set ed := A ++ bsize c brg.block :: B with hedd
  have hR : (Range.init ed)[pre.length]? = some ((Range.init ed)[pre.length]'(by
      have := congrArg List.length (extents_init ed)
      simp only [Range.extents, List.length_map] at this
      rw [this, hedd]; simp [hlA])) := List.getElem?_eq_getElem _
  obtain ⟨off, S, hsub, -, hSe⟩ := C58_subIndex (Range.init ed) pre.length brg.start (brg.start + brg.extent) _ hR
    (A ++ 0 :: B) 0 (by rw [← hlA]; simp)
  have hSe' : S.extents = A ++ [E.prod] ++ B := by
    rw [hSe, extents_init, hedd, ← hlA, Nat.add_sub_cancel_left, hext]
    simp [bdim]
    rfl
  have hSa : ∀ up x uq, up.length = pre.length → uq.length = B.length →
      off + addr S (up ++ [x] ++ uq) = rank ed (up ++ (brg.start + x) :: uq) := by
    intro up x uq hup huq
    obtain ⟨off', V', e1, e2, _⟩ := C58_subIndex (Range.init ed) pre.length brg.start (brg.start + brg.extent) _ hR
      (up ++ [x] ++ uq) x (by rw [← hup]; simp)
    rw [hsub] at e1
    obtain ⟨rfl, rfl⟩ := Prod.mk.inj (Res.ok.inj e1)
    rw [e2, addr_init (by simp [hup, huq, hedd, hlA])]
    congr 1
    rw [← hup]
    simp
  have hGr : ∀ up uc uq, up.length = A.length → uc.length = E.length →
      rank (A ++ [E.prod] ++ B) (up ++ [rank E uc] ++ uq) = rank (A ++ E ++ B) (up ++ uc ++ uq) := by
    intro up uc uq h1 h2
    rw [rank_append _ _ _ _ (by simp [h1]), rank_append _ _ _ _ h1, rank_append _ _ _ _ (by simp [h1, h2]), rank_append _ _ _ _ h1]
    simp [rank]
  have hpos' : ∀ x ∈ A ++ [E.prod] ++ B, 0 < x := by
    intro x hx
    simp only [List.mem_append, List.mem_singleton] at hx
    rcases hx with (hx | rfl) | hx
    · exact hEpos x (by simp [hx])
    · exact List.prod_pos fun y hy => hEpos y (by simp [hy])
    · exact hEpos x (by simp [hx])
  have hprod' : (A ++ [E.prod] ++ B).prod = (A ++ E ++ B).prod := by simp
  obtain ⟨l2, f1, f2, f3⟩ := C17_transform (fun (b _ : K) => b) S (Range.init (A ++ [E.prod] ++ B))
    (by rw [hSe', extents_init]) (by rw [hSe']; exact hpos') (by rw [hSe', hprod']; omega) (by
      intro i j hi hj he
      rw [extents_init] at hi hj
      rw [addr_init (valid_length hi), addr_init (valid_length hj)] at he
      exact rank_inj hi hj he)
    fuel (by rw [hSe', hprod']; omega) (fun a => d.data (doff + off + a)) (fun a => nd.data (no + a))
  refine ⟨{ nd with data := fun a => applyPairs (fun (b _ : K) => b) (fun a => d.data (doff + off + a)) l2 (fun a => nd.data (no + a)) (a - no) },
    ?_, rfl, rfl, ?_⟩
  · unfold uncombineStep
    have e1 : (bp ++ brg.block :: bq)[pre.length]? = some brg.block := by rw [← hlp]; simp
    have e2 : (bp ++ brg.block :: bq).take pre.length = bp := by rw [← hlp]; simp
    have e3 : (bp ++ brg.block :: bq).drop (pre.length + 1) = bq := by rw [← hlp]; simp
    dsimp only
    rw [e1]
    dsimp only
    rw [if_neg (by simp), e2, e3, invertOffset_eq cs (rank_lt hbc), unrank_rank hbc, hed, hsub, blockExtents_ok hvn, hno, hen]
    dsimp only
    rw [hG]
    dsimp only
    unfold runTransform
    rw [f1]
    rfl
  · intro b u hb hu
    classical
    have hsplit : ∀ w, Valid (A ++ E ++ B) w → ∃ up uc uq, w = up ++ uc ++ uq ∧ Valid A up ∧ Valid E uc ∧ Valid B uq := by
      intro w hw
      obtain ⟨x, uq, e1, h1, h2⟩ := valid_split hw
      obtain ⟨up, uc, e2, h3, h4⟩ := valid_split h1
      exact ⟨up, uc, uq, by rw [e1, e2], h3, h4, h2⟩
    have hW := writeBlock_spec hnd hvn hno
      (fun w => Valid (bext (pre ++ cs ++ post) (bp ++ bc ++ bq)) w) (fun w hw => hw)
      (fun w => elem d (pre ++ c :: post) (bp ++ brg.block :: bq) (joined pre.length cs.length brg.start E w))
      (data := fun a => applyPairs (fun (b _ : K) => b) (fun a => d.data (doff + off + a)) l2 (fun a => nd.data (no + a)) (a - no))
      ?_ ?_ hb hu
    · rw [hW]
      by_cases hc1 : b = bp ++ bc ++ bq
      · subst hc1
        rw [if_pos ⟨rfl, hu⟩, if_pos rfl]
      · rw [if_neg (fun hh => hc1 hh.1), if_neg hc1]
    · intro w hw
      rw [hen] at hw ⊢
      obtain ⟨up, uc, uq, rfl, h1, h2, h3⟩ := hsplit w hw
      have hvs : Valid S.extents (up ++ [rank E uc] ++ uq) := by
        rw [hSe']; exact valid_append (valid_append h1 (.cons (rank_lt h2) .nil)) h3
      have e1 : ((no + rank (A ++ E ++ B) (up ++ uc ++ uq) : Nat) : Int) - no =
          (addr (Range.init (A ++ [E.prod] ++ B)) (up ++ [rank E uc] ++ uq) : Nat) := by
        rw [addr_init (by simp [valid_length h1, valid_length h3]), hGr _ _ _ (valid_length h1) (valid_length h2)]
        push_cast; ring
      rw [e1, f2 _ hvs, joined_append (by rw [valid_length h1, hlA]) (by rw [valid_length h2, hlE])]
      unfold elem
      rw [getBlock_mem hd hio, hed]
      dsimp only
      rw [← hSa up _ uq (by rw [valid_length h1, hlA]) (valid_length h3)]
      push_cast
      congr 1
      ring
    · intro a ha
      rw [f3]
      · congr 1; ring
      · intro i hi he
        rw [hSe'] at hi
        obtain ⟨x, uq, e1, h1, h2⟩ := valid_split hi
        obtain ⟨up, y, e2, h3, h4⟩ := valid_split h1
        obtain ⟨r, rfl, hr⟩ : ∃ r, y = [r] ∧ r < E.prod := by
          cases y with
          | nil => exact absurd (valid_length h4) (by simp)
          | cons r y =>
            obtain ⟨g1, g2⟩ := List.forall₂_cons.1 h4
            exact ⟨r, by rw [List.forall₂_nil_right_iff.1 g2], g1⟩
        subst e2; subst e1
        refine ha (up ++ unrank E r ++ uq) (by rw [hen]; exact valid_append (valid_append h3 (unrank_valid hr)) h2) ?_
        rw [hen, ← hGr _ _ _ (valid_length h3) (by simp), rank_unrank hr]
        rw [addr_init (by simp [valid_length h3, valid_length h2])] at he
        omega

theorem uncombineInner_spec {M : Verif.QN.Name → Int} {us : List Verif.QN.Name} {pre post cs : IndexSet} {c : Index} {store : List BlockRange} (hC : CombinerOK M us cs c store) (hpos : PosSectors (pre ++ cs ++ post))
    {d : QDense K} (hd : WF (pre ++ c :: post) d.offsets d.size) {bp bq : Block} {n doff : Nat}
    (hbp : Valid (nb pre) bp) (hbq : Valid (nb post) bq) (hn : n < c.nblock)
    (hio : (⟨bp ++ n :: bq, doff⟩ : BlOf) ∈ d.offsets) {fuel : Nat}
    (L : List (Nat × BlockRange)) {nd : QDense K}
    (hnd : WF (pre ++ cs ++ post) nd.offsets nd.size) (hf : nd.size < fuel) (hmax : (nd.size : Int) ≤ offMax)
    (hL : ∀ e ∈ L, store[e.1]? = some e.2)
    (hB : ∀ bc brg, Valid (nb cs) bc → store[rank (nb cs) bc]? = some brg → brg.block = n →
      ∃ no, getBlock nd (bp ++ bc ++ bq) = some no) :
    ∃ nd', runFold (uncombineStep fuel pre.length cs (pre ++ cs ++ post) (bext (pre ++ c :: post) (bp ++ n :: bq)) d
        ⟨bp ++ n :: bq, doff⟩) nd L = some (.ok nd') ∧ nd'.offsets = nd.offsets ∧ nd'.size = nd.size ∧
      ∀ bp' bc' bq' brg' u, Valid (nb pre) bp' → Valid (nb cs) bc' → Valid (nb post) bq' → store[rank (nb cs) bc']? = some brg' →
        Valid (bext (pre ++ cs ++ post) (bp' ++ bc' ++ bq')) u →
        elem nd' (pre ++ cs ++ post) (bp' ++ bc' ++ bq') u =
          if bp' = bp ∧ bq' = bq ∧ brg'.block = n ∧ (rank (nb cs) bc', brg') ∈ L then
            elem d (pre ++ c :: post) (bp ++ n :: bq) (joined pre.length cs.length brg'.start (bext cs bc') u)
          else elem nd (pre ++ cs ++ post) (bp' ++ bc' ++ bq') u := by
  induction L generalizing nd with
  | nil => exact ⟨nd, rfl, rfl, rfl, by simp⟩
  | cons e L ih =>
    obtain ⟨o, brg⟩ := e
    have hs := hL _ (List.mem_cons_self ..)
    dsimp only at hs
    have ho : o < (nb cs).prod := by rw [← hC.len]; exact (List.getElem?_eq_some_iff.1 hs).1
    have hbc := unrank_valid ho
    have hoe : o = rank (nb cs) (unrank (nb cs) o) := (rank_unrank ho).symm
    have hlp : bp.length = pre.length := by rw [valid_length hbp]; simp [nb]
    by_cases hbn : brg.block = n
    · subst hbn
      obtain ⟨no, hno⟩ := hB _ brg hbc (by rw [← hoe]; exact hs) rfl
      obtain ⟨brg1, q, m, k1, _, _, k4, _⟩ := hC.block _ hbc
      rw [← hoe, hs] at k1
      obtain rfl := Option.some.inj k1
      obtain ⟨nd1, e1, e2, e3, e4⟩ := uncombineStep_spec hpos hd hnd hf hmax hbp hbc hbq hn hio k4 hno
      rw [← hoe] at e1
      obtain ⟨nd', f1, f2, f3, f4⟩ := ih (nd := nd1) (by rw [e2, e3]; exact hnd) (by omega) (by rw [e3]; exact hmax)
        (fun x hx => hL x (by simp [hx])) (by
          intro bc brg h1 h2 h3
          obtain ⟨no', hno'⟩ := hB bc brg h1 h2 h3
          exact ⟨no', by rw [← hno']; unfold getBlock; rw [e2, e3]⟩)
      refine ⟨nd', by simp only [runFold, e1]; exact f1, by rw [f2, e2], by rw [f3, e3], ?_⟩
      intro bp' bc' bq' brg' u h1 h2 h3 h4 h5
      have hv : Valid (nb (pre ++ cs ++ post)) (bp' ++ bc' ++ bq') := by
        simp only [nb, List.map_append]; exact valid_append (valid_append h1 h2) h3
      rw [f4 bp' bc' bq' brg' u h1 h2 h3 h4 h5, e4 _ u hv h5]
      by_cases hc1 : bp' = bp ∧ bq' = bq ∧ brg'.block = brg.block ∧ (rank (nb cs) bc', brg') ∈ L
      · rw [if_pos hc1, if_pos ⟨hc1.1, hc1.2.1, hc1.2.2.1, List.mem_cons_of_mem _ hc1.2.2.2⟩]
      · rw [if_neg hc1]
        by_cases hc2 : bp' ++ bc' ++ bq' = bp ++ unrank (nb cs) o ++ bq
        · obtain ⟨g1, g2⟩ := List.append_inj hc2 (by simp [valid_length h1, valid_length h2, valid_length hbp])
          obtain ⟨g3, g4⟩ := List.append_inj g1 (by simp [valid_length h1, valid_length hbp])
          subst g2; subst g3
          have hbr : brg' = brg := by
            rw [g4, rank_unrank ho, hs] at h4; exact (Option.some.inj h4).symm
          subst hbr
          rw [if_pos hc2, if_pos ⟨rfl, rfl, rfl, by rw [g4, rank_unrank ho]; simp⟩, g4]
        · rw [if_neg hc2, if_neg]
          rintro ⟨g1, g2, g3, g4⟩
          rcases List.mem_cons.1 g4 with g4 | g4
          · refine hc2 ?_
            rw [g1, g2, ← (Prod.mk.inj g4).1, unrank_rank h2]
          · exact hc1 ⟨g1, g2, g3, g4⟩
    · obtain ⟨nd', f1, f2, f3, f4⟩ := ih hnd hf hmax (fun x hx => hL x (by simp [hx])) hB
      have hst : uncombineStep fuel pre.length cs (pre ++ cs ++ post) (bext (pre ++ c :: post) (bp ++ n :: bq)) d
          ⟨bp ++ n :: bq, doff⟩ nd (o, brg) = some (.ok nd) := by
        unfold uncombineStep
        have e1 : (bp ++ n :: bq)[pre.length]? = some n := by rw [← hlp]; simp
        dsimp only
        rw [e1]
        dsimp only
        rw [if_pos hbn]
      refine ⟨nd', by simp only [runFold, hst]; exact f1, f2, f3, ?_⟩
      intro bp' bc' bq' brg' u h1 h2 h3 h4 h5
      rw [f4 bp' bc' bq' brg' u h1 h2 h3 h4 h5]
      congr 1
      refine propext ⟨fun ⟨g1, g2, g3, g4⟩ => ⟨g1, g2, g3, List.mem_cons_of_mem _ g4⟩, ?_⟩
      rintro ⟨g1, g2, g3, g4⟩
      rcases List.mem_cons.1 g4 with g4 | g4
      · exact absurd (by rw [← (Prod.mk.inj g4).2]; exact g3) hbn
      · exact ⟨g1, g2, g3, g4⟩

theorem uncombineFold_spec {M : Verif.QN.Name → Int} {us : List Verif.QN.Name} {pre post cs : IndexSet} {c : Index} {store : List BlockRange} (hC : CombinerOK M us cs c store) (hpos : PosSectors (pre ++ cs ++ post))
    {d : QDense K} (hd : WF (pre ++ c :: post) d.offsets d.size) {fuel : Nat} (l : List BlOf) {nd : QDense K}
    (hnd : WF (pre ++ cs ++ post) nd.offsets nd.size) (hf : nd.size < fuel) (hmax : (nd.size : Int) ≤ offMax)
    (hl : ∀ o ∈ l, o ∈ d.offsets)
    (hB : ∀ bp bc bq brg, Valid (nb pre) bp → Valid (nb cs) bc → Valid (nb post) bq → store[rank (nb cs) bc]? = some brg →
      bp ++ brg.block :: bq ∈ l.map (·.block) → ∃ no, getBlock nd (bp ++ bc ++ bq) = some no) :
    ∃ nd', runFold (uncombineBlock fuel pre.length cs (pre ++ cs ++ post) (pre ++ c :: post) store d) nd l = some (.ok nd') ∧ nd'.offsets = nd.offsets ∧ nd'.size = nd.size ∧
      ∀ bp bc bq brg u, Valid (nb pre) bp → Valid (nb cs) bc → Valid (nb post) bq → store[rank (nb cs) bc]? = some brg →
        Valid (bext (pre ++ cs ++ post) (bp ++ bc ++ bq)) u →
        elem nd' (pre ++ cs ++ post) (bp ++ bc ++ bq) u =
          if bp ++ brg.block :: bq ∈ l.map (·.block) then
            elem d (pre ++ c :: post) (bp ++ brg.block :: bq) (joined pre.length cs.length brg.start (bext cs bc) u)
          else elem nd (pre ++ cs ++ post) (bp ++ bc ++ bq) u := by
  have hzip : ∀ o brg, (o, brg) ∈ (List.range store.length).zip store ↔ store[o]? = some brg := by
    intro o brg
    constructor
    · intro h
      obtain ⟨i, hi⟩ := List.mem_iff_getElem?.1 h
      obtain ⟨h1, h2⟩ := List.getElem?_zip_eq_some.1 hi
      obtain ⟨h3, h4⟩ := List.getElem?_eq_some_iff.1 h1
      rw [List.getElem_range] at h4
      dsimp only at h2 h4
      rw [← h4]; exact h2
    · intro h
      refine List.mem_iff_getElem?.2 ⟨o, List.getElem?_zip_eq_some.2 ⟨?_, h⟩⟩
      exact List.getElem?_range (List.getElem?_eq_some_iff.1 h).1
  induction l generalizing nd with
  | nil => exact ⟨nd, rfl, rfl, rfl, by simp⟩
  | cons o l ih =>
    have hov := hd.valid o (hl o (by simp))
    obtain ⟨bp0, y, ho1, hbp0, hy⟩ := valid_split (ds := nb pre) (es := nb (c :: post)) (by
      simpa only [nb, List.map_append] using hov)
    obtain ⟨n, bq0, rfl, hn, hbq0⟩ : ∃ n bq0, y = n :: bq0 ∧ n < c.nblock ∧ Valid (nb post) bq0 := by
      cases y with
      | nil => exact absurd (valid_length hy) (by simp [nb])
      | cons n bq0 =>
        obtain ⟨g1, g2⟩ := List.forall₂_cons.1 hy
        exact ⟨n, bq0, rfl, g1, g2⟩
    have ho : o = ⟨bp0 ++ n :: bq0, o.offset⟩ := by rw [← ho1]
    obtain ⟨nd1, e1, e2, e3, e4⟩ := uncombineInner_spec hC hpos hd hbp0 hbq0 hn (by rw [← ho]; exact hl o (by simp))
      ((List.range store.length).zip store) hnd hf hmax (by
        rintro ⟨o, brg⟩ he
        exact (hzip o brg).1 he) (by
        intro bc brg h1 h2 h3
        exact hB bp0 bc bq0 brg hbp0 h1 hbq0 h2 (by rw [h3, ← ho1]; simp))
    rw [← ho, ← ho1] at e1
    obtain ⟨nd', f1, f2, f3, f4⟩ := ih (nd := nd1) (by rw [e2, e3]; exact hnd) (by omega) (by rw [e3]; exact hmax)
      (fun x hx => hl x (by simp [hx])) (by
        intro bp bc bq brg h1 h2 h3 h4 h5
        obtain ⟨no', hno'⟩ := hB bp bc bq brg h1 h2 h3 h4 (by rw [List.map_cons]; exact List.mem_cons_of_mem _ h5)
        exact ⟨no', by rw [← hno']; unfold getBlock; rw [e2, e3]⟩)
    refine ⟨nd', ?_, by rw [f2, e2], by rw [f3, e3], ?_⟩
    · simp only [runFold, uncombineBlock, blockExtents_ok hov, e1]
      exact f1
    · intro bp bc bq brg u h1 h2 h3 h4 h5
      rw [f4 bp bc bq brg u h1 h2 h3 h4 h5, e4 bp bc bq brg u h1 h2 h3 h4 h5]
      by_cases hc1 : bp ++ brg.block :: bq ∈ l.map (·.block)
      · rw [if_pos hc1, if_pos (by rw [List.map_cons]; exact List.mem_cons_of_mem _ hc1)]
      · rw [if_neg hc1]
        by_cases hc2 : bp ++ brg.block :: bq = o.block
        · have hc3 := hc2
          rw [ho1] at hc2
          obtain ⟨g1, g2⟩ := List.append_inj hc2 (by rw [valid_length h1, valid_length hbp0])
          obtain ⟨g2, g3⟩ := List.cons.inj g2
          subst g1; subst g2; subst g3
          rw [if_pos ⟨rfl, rfl, rfl, (hzip _ _).2 h4⟩, if_pos (by rw [hc3]; simp)]
        · rw [if_neg, if_neg]
          · rw [List.map_cons, List.mem_cons]; rintro (h | h)
            · exact hc2 h
            · exact hc1 h
          · rintro ⟨rfl, rfl, rfl, _⟩
            exact hc2 ho1.symm

theorem nb_le_dims {is : IndexSet} (h : PosSectors is) : (nb is).prod ≤ (dims is).prod := by
  induction is with
  | nil => simp [nb, dims]
  | cons I is ih =>
    simp only [nb, dims, List.map_cons, List.prod_cons]
    refine Nat.mul_le_mul ?_ (ih fun J hJ => h J (by simp [hJ]))
    have hI := h I (by simp)
    rw [← szs_length]
    generalize szs I = l at hI
    induction l with
    | nil => simp
    | cons x l ihl =>
      have := ihl fun s hs => hI s (by simp [hs])
      have := hI x (by simp)
      simp only [List.length_cons, List.sum_cons]
      omega

theorem size_le {is : IndexSet} {offs : List BlOf} {size : Nat} (h : WF is offs size) : size ≤ (dims is).prod := by
  have h1 := tile_size h.tile
  have hsub : (offs.map (·.block)).Subperm (allInds (nb is)) := by
    refine List.subperm_of_subset (sortedOff_nodup h.sorted) ?_
    intro b hb
    obtain ⟨o, ho, rfl⟩ := List.mem_map.1 hb
    exact mem_allInds.2 (h.valid o ho)
  obtain ⟨l, hl1, hl2⟩ := hsub
  have h2 : (l.map (bdim is)).sum ≤ ((allInds (nb is)).map (bdim is)).sum :=
    (hl2.map (bdim is)).sum_le_sum (by simp)
  rw [sum_bdim] at h2
  have h3 := (hl1.map (bdim is)).sum_eq
  omega

/-- `uncombine`, elements block by block. -/
theorem quncombine_ok {M : Verif.QN.Name → Int} {us : List Verif.QN.Name} {pre post cs : IndexSet} {c c0 : Index} {store : List BlockRange}
    (hC : CombinerOK M us cs c store) (hdir : c.dir = 1 ∨ c.dir = -1) (hpos : PosSectors (pre ++ cs ++ post))
    (hokd : SectorsOK M us (pre ++ c :: post)) (hok : SectorsOK M us (pre ++ cs ++ post))
    (hsec : ∀ I ∈ pre ++ cs ++ post, 0 < I.nblock) (hne : pre ++ cs ++ post ≠ [])
    {d : QDense K} (hd : WF (pre ++ c :: post) d.offsets d.size) (hF : HasFlux M (pre ++ c :: post) d)
    {fuel : Nat} (hf : (dims (pre ++ cs ++ post)).prod < fuel) (hmax : ((dims (pre ++ cs ++ post)).prod : Int) ≤ offMax) :
    ∃ N, quncombine fuel (pre ++ c :: post) (c0 :: cs) store d pre.length = some (.ok (pre ++ cs ++ post, N)) ∧
      WF (pre ++ cs ++ post) N.offsets N.size ∧ HasFlux M (pre ++ cs ++ post) N ∧
      ∀ bp bc bq brg up uc uq, Valid (nb pre) bp → Valid (nb cs) bc → Valid (nb post) bq → store[rank (nb cs) bc]? = some brg →
        Valid (bext pre bp) up → Valid (bext cs bc) uc → Valid (bext post bq) uq →
        elem N (pre ++ cs ++ post) (bp ++ bc ++ bq) (up ++ uc ++ uq) =
          elem d (pre ++ c :: post) (bp ++ brg.block :: bq) (up ++ (brg.start + rank (bext cs bc) uc) :: uq) := by
  have hnb := nb_le_dims hpos
  obtain ⟨div, hdiv1, hdiv2, hdiv3⟩ := calcDiv_ok hokd hd (by simp) hF
  obtain ⟨nd, n1, n2, n3, n4⟩ := C21_ofDiv (K := K) (is := pre ++ cs ++ post) hne hsec hok hdiv2 fuel (by omega) (by omega)
  have hsz := size_le n2
  have hval : ∀ is : IndexSet, ∀ b, Valid (nb is) b ↔ List.Forall₂ (fun (x : Nat) (I : Index) => x < I.qns.length) b is := by
    intro is b
    unfold Valid nb
    rw [List.forall₂_map_right_iff]
    rfl
  have hzero : ∀ b u, elem nd (pre ++ cs ++ post) b u = 0 := by
    intro b u; unfold elem; split
    · exact n3 _
    · rfl
  obtain ⟨N, f1, f2, f3, f4⟩ := uncombineFold_spec hC hpos hd (fuel := fuel) d.offsets n2 (by omega) (by omega) (fun _ ho => ho) (by
    intro bp bc bq brg hbp hbc hbq hs hmem
    obtain ⟨o, ho, hob⟩ := List.mem_map.1 hmem
    obtain ⟨brg1, q, m, hs1, k2, k3, k4, k5⟩ := hC.block bc hbc
    rw [hs] at hs1
    obtain rfl := Option.some.inj hs1
    have hv : Valid (nb (pre ++ cs ++ post)) (bp ++ bc ++ bq) := by
      simp only [nb, List.map_append]; exact valid_append (valid_append hbp hbc) hbq
    have hlp : bp.length = pre.length := by rw [valid_length hbp]; simp [nb]
    have hlc : bc.length = cs.length := by rw [valid_length hbc]; simp [nb]
    obtain ⟨o', ho', hob'⟩ := (n4 (bp ++ bc ++ bq)).2 ⟨(hval _ _).1 hv, by
      intro n
      rw [← hdiv3 o ho n, hob, fluxVal_append _ _ _ _ (by simp [hlp, hlc]), fluxVal_append _ _ _ _ hlp, fluxVal_append _ _ _ _ hlp]
      have e1 : fluxVal (c :: post) (brg.block :: bq) n = q.val n * c.dir + fluxVal post bq n := by
        unfold fluxVal
        simp only [List.zipWith_cons_cons, List.sum_cons, List.getD_eq_getElem?_getD, k2, Option.getD_some]
      have hm : ∀ m v w : Int, norm m (norm m v * w) = norm m (v * w) := by
        intro m v w
        unfold norm; split
        · rw [Int.mul_emod, Int.emod_emod_of_dvd _ (Int.dvd_refl _), ← Int.mul_emod]
        · rfl
      rw [e1, k3 n, show fluxVal pre bp n + (norm (M n) (c.dir * fluxVal cs bc n) * c.dir + fluxVal post bq n) =
        norm (M n) (c.dir * fluxVal cs bc n) * c.dir + (fluxVal pre bp n + fluxVal post bq n) by ring,
        ← Verif.QN.norm_add_norm_left (M n) (norm (M n) (c.dir * fluxVal cs bc n) * c.dir), hm, Verif.QN.norm_add_norm_left]
      congr 1
      rcases hdir with hdir | hdir <;> rw [hdir] <;> ring⟩
    have := getBlock_mem n2 ho'
    rw [hob'] at this
    exact ⟨_, this⟩)
  refine ⟨N, ?_, by rw [f2, f3]; exact n2, ?_, ?_⟩
  · unfold quncombine
    dsimp only
    have e1 : (pre ++ c :: post).take pre.length ++ cs ++ (pre ++ c :: post).drop (pre.length + 1) = pre ++ cs ++ post := by
      simp
    rw [hdiv1]
    simp only [e1, n1, Run.bind, f1]
  · intro o ho o' ho' n
    rw [f2] at ho ho'
    rw [((n4 o.block).1 ⟨o, ho, rfl⟩).2 n, ((n4 o'.block).1 ⟨o', ho', rfl⟩).2 n]
  · intro bp bc bq brg up uc uq hbp hbc hbq hs hup huc huq
    have hlp : bp.length = pre.length := by rw [valid_length hbp]; simp [nb]
    have hlc : bc.length = cs.length := by rw [valid_length hbc]; simp [nb]
    rw [f4 bp bc bq brg _ hbp hbc hbq hs (by
      rw [bext_append _ _ _ _ (by simp [hlp, hlc]), bext_append _ _ _ _ hlp]
      exact valid_append (valid_append hup huc) huq)]
    rw [joined_append (by rw [valid_length hup, bext_length hbp]) (by rw [valid_length huc, bext_length hbc])]
    by_cases hmem : bp ++ brg.block :: bq ∈ d.offsets.map (·.block)
    · rw [if_pos hmem]
    · rw [if_neg hmem, hzero]
      obtain ⟨brg1, q, m, hs1, k2, k3, k4, k5⟩ := hC.block bc hbc
      rw [hs] at hs1
      obtain rfl := Option.some.inj hs1
      have hbn : brg.block < c.nblock := (List.getElem?_eq_some_iff.1 k2).1
      unfold elem
      rw [getBlock_notMem hd (by simp only [nb, List.map_append, List.map_cons]; exact valid_append hbp (.cons hbn hbq)) (by
        intro o ho e
        exact hmem (by rw [← e]; exact List.mem_map_of_mem ho))]

/-! ## Values of the combined index -/

theorem glue_append {is js : IndexSet} {b c : Block} {u v : List Nat} (h : b.length = is.length) (hu : u.length = is.length) :
    glue (is ++ js) (b ++ c) (u ++ v) = glue is b u ++ glue js c v := by
  induction is generalizing b u with
  | nil =>
    have : b = [] := by simpa using h
    have : u = [] := by simpa using hu
    subst_vars; simp [glue]
  | cons I is ih =>
    cases b with
    | nil => simp at h
    | cons x b =>
    cases u with
    | nil => simp at hu
    | cons y u =>
      simp only [List.length_cons, Nat.add_right_cancel_iff] at h hu
      simp only [List.cons_append, glue, ih h hu]

theorem combVal {M : Verif.QN.Name → Int} {us : List Verif.QN.Name} {inds : IndexSet} {c : Index} {store : List BlockRange}
    (hC : CombinerOK M us inds c store) : ∃ Φ : List Nat → Nat,
      Set.BijOn Φ {v | Valid (dims inds) v} {x | x < (szs c).sum} ∧
      ∀ b u br, Valid (nb inds) b → Valid (bext inds b) u → store[rank (nb inds) b]? = some br →
        Φ (glue inds b u) = gl c br.block (br.start + rank (bext inds b) u) := by
  classical
  have hex : ∀ v, ∃ x, ∀ b u br, Valid (nb inds) b → Valid (bext inds b) u → v = glue inds b u → store[rank (nb inds) b]? = some br →
      x = gl c br.block (br.start + rank (bext inds b) u) := by
    intro v
    by_cases h : ∃ b u br, Valid (nb inds) b ∧ Valid (bext inds b) u ∧ v = glue inds b u ∧ store[rank (nb inds) b]? = some br
    · obtain ⟨b, u, br, h1, h2, h3, h4⟩ := h
      refine ⟨gl c br.block (br.start + rank (bext inds b) u), fun b' u' br' g1 g2 g3 g4 => ?_⟩
      obtain ⟨rfl, rfl⟩ := glue_inj h1 h2 g1 g2 (h3.symm.trans g3)
      rw [h4] at g4
      rw [Option.some.inj g4]
    · exact ⟨0, fun b u br h1 h2 h3 h4 => absurd ⟨b, u, br, h1, h2, h3, h4⟩ h⟩
  choose Φ hΦ using hex
  have hval : ∀ b u br, Valid (nb inds) b → Valid (bext inds b) u → store[rank (nb inds) b]? = some br →
        Φ (glue inds b u) = gl c br.block (br.start + rank (bext inds b) u) := fun b u br h1 h2 h3 => hΦ _ b u br h1 h2 rfl h3
  have hin : ∀ b u br, Valid (nb inds) b → Valid (bext inds b) u → store[rank (nb inds) b]? = some br →
      Valid (nb [c]) [br.block] ∧ Valid (bext [c] [br.block]) [br.start + rank (bext inds b) u] := by
    intro b u br h1 h2 h3
    obtain ⟨br1, q, m, k1, k2, _, k4, k5⟩ := hC.block b h1
    rw [h3] at k1
    obtain rfl := Option.some.inj k1
    have hbs : bsize c br.block = m := by
      simp only [bsize, szs, List.getD_eq_getElem?_getD, List.getElem?_map, k2, Option.map_some, Option.getD_some]
    have := rank_lt h2
    refine ⟨.cons (List.getElem?_eq_some_iff.1 k2).1 .nil, ?_⟩
    show Valid [bsize c br.block] _
    rw [hbs]
    refine .cons ?_ .nil
    unfold bdim at k4
    omega
  refine ⟨Φ, ⟨?_, ?_, ?_⟩, hval⟩
  · intro v hv
    obtain ⟨b, u, h1, h2, rfl⟩ := exists_glue hv
    obtain ⟨br, _, _, k1, _⟩ := hC.block b h1
    obtain ⟨g1, g2⟩ := hin b u br h1 h2 k1
    have := glue_valid g1 g2
    simp only [glue, dims, List.map_cons, List.map_nil] at this
    show Φ _ < _
    rw [hval b u br h1 h2 k1]
    exact (List.forall₂_cons.1 this).1
  · intro v hv v' hv' e
    obtain ⟨b, u, h1, h2, rfl⟩ := exists_glue hv
    obtain ⟨b', u', h1', h2', rfl⟩ := exists_glue hv'
    obtain ⟨br, q, m, k1, k2, _, k4, k5⟩ := hC.block b h1
    obtain ⟨br', q', m', k1', _, _, k4', _⟩ := hC.block b' h1'
    obtain ⟨g1, g2⟩ := hin b u br h1 h2 k1
    obtain ⟨g1', g2'⟩ := hin b' u' br' h1' h2' k1'
    rw [hval b u br h1 h2 k1, hval b' u' br' h1' h2' k1'] at e
    obtain ⟨e1, e2⟩ := glue_inj g1 g2 g1' g2' (by simp only [glue, e])
    simp only [List.cons.injEq, and_true] at e1 e2
    have hr := rank_lt h2
    have hr' := rank_lt h2'
    unfold bdim at k4 k4'
    obtain ⟨b0, _, hu⟩ := hC.cover br.block q m k2 (br.start + rank (bext inds b) u) (by omega)
    have u1 := hu b ⟨h1, br, k1, rfl, by omega, by omega⟩
    have u2 := hu b' ⟨h1', br', k1', e1.symm, by omega, by omega⟩
    obtain rfl := u1.trans u2.symm
    rw [k1] at k1'
    obtain rfl := Option.some.inj k1'
    rw [rank_inj h2 h2' (by omega)]
  · intro x hx
    obtain ⟨n, w, g1, g2, e⟩ := exists_glue (is := [c]) (ind := [x]) (.cons hx .nil)
    obtain ⟨n, rfl, hn⟩ : ∃ n', n = [n'] ∧ n' < c.nblock := by
      cases n with
      | nil => exact absurd (valid_length g1) (by simp [nb])
      | cons n l =>
        obtain ⟨a1, a2⟩ := List.forall₂_cons.1 g1
        exact ⟨n, by cases a2; rfl, a1⟩
    have hqn := List.getElem?_eq_getElem (show n < c.qns.length from hn)
    have hbs : bsize c n = (c.qns[n]'hn).2 := by
      simp only [bsize, szs, List.getD_eq_getElem?_getD, List.getElem?_map, hqn, Option.map_some, Option.getD_some]
      rfl
    simp only [bext, List.zipWith_cons_cons, List.zipWith_nil_right, hbs] at g2
    obtain ⟨w, rfl, hw⟩ : ∃ w', w = [w'] ∧ w' < (c.qns[n]'hn).2 := by
      cases w with
      | nil => exact absurd (valid_length g2) (by simp)
      | cons w l =>
        obtain ⟨a1, a2⟩ := List.forall₂_cons.1 g2
        exact ⟨w, by cases a2; rfl, a1⟩
    obtain ⟨b, ⟨hb, br, k1, k2, k3, k4⟩, _⟩ := hC.cover n (c.qns[n]'hn).1 _ hqn w hw
    obtain ⟨br1, _, _, l1, _, _, l4, _⟩ := hC.block b hb
    rw [k1] at l1
    obtain rfl := Option.some.inj l1
    unfold bdim at l4
    have hlt : w - br.start < (bext inds b).prod := by omega
    refine ⟨glue inds b (unrank (bext inds b) (w - br.start)), glue_valid hb (unrank_valid hlt), ?_⟩
    rw [hval _ _ br hb (unrank_valid hlt) k1, rank_unrank hlt, k2, show br.start + (w - br.start) = w by omega]
    simp only [glue, List.cons.injEq, and_true] at e
    exact e.symm

theorem CombinerOK.pos {M : Verif.QN.Name → Int} {us : List Verif.QN.Name} {inds : IndexSet} {c : Index} {store : List BlockRange}
    (hC : CombinerOK M us inds c store) (hp : PosSectors inds) : PosSectors [c] := by
  intro I hI s hs
  obtain rfl := List.mem_singleton.1 hI
  obtain ⟨p, hp', rfl⟩ := List.mem_map.1 hs
  obtain ⟨n, hn, rfl⟩ := List.getElem_of_mem hp'
  obtain ⟨b, br, h1, h2, h3⟩ := hC.hit n hn
  obtain ⟨br1, q, m, k1, k2, _, k4, k5⟩ := hC.block b h1
  rw [h2] at k1
  obtain rfl := Option.some.inj k1
  rw [h3, List.getElem?_eq_getElem hn] at k2
  rw [Option.some.inj k2]
  have : 0 < bdim inds b := List.prod_pos (bext_pos hp h1)
  dsimp only
  omega

/-! ## Combining and uncombining, element by element -/

/-- **C26 for QN tensors.** `combiner(inds)` fixes a one-to-one correspondence `Φ` between the values of the indices `inds`
and the values of the new index. Multiplying any tensor `T` that has these indices by the combiner gives a
tensor with the same elements, stored under the corresponding values; multiplying the result by
`dag` of the combiner gives back the indices and the elements of `T`. Multiplying any tensor `S` that has the new
index at any position by `dag` of the combiner gives the tensor with `inds` in its place and the same elements.
`ρ` assigns a value to every index. -/
theorem C26_qn {M : Verif.QN.Name → Int} {u : List Verif.QN.Name} (fuel id : Nat) (tags : Verif.TagSet.TagSet) (arg : Option Int)
    {inds : IndexSet} (hne : inds ≠ []) (hok : SectorsOK M u inds) (harg : ∀ a, arg = some a → a = 1 ∨ a = -1)
    (hdirs : ∀ I ∈ inds, I.dir = 1 ∨ I.dir = -1) (hsec : ∀ I ∈ inds, I.qns ≠ []) (hpos : ∀ I ∈ inds, ∀ p ∈ I.qns, 0 < p.2)
    (hnd : (keys inds).Nodup) (hf : (inds.map fun I => I.qns.length).prod < fuel)
    (hmax : (((inds.map fun I => I.qns.length).prod : Nat) : Int) ≤ offMax) :
    ∃ c store, qcombiner fuel id tags arg inds = some (.ok (c :: inds.map Index.dag, store)) ∧
      ∃ Φ : List Nat → Nat,
        Set.BijOn Φ {v | Valid (inds.map fun I => (I.qns.map (·.2)).sum) v} {x | x < c.dim} ∧
        (∀ (fresh : Int → K) (T : QDense K) (dis : IndexSet), (∀ I ∈ inds, I ∈ dis) → (keys dis).Nodup → (∀ I ∈ dis, I.id ≠ id) →
          SectorsOK M u dis → (∀ I ∈ dis, I.qns ≠ []) → (∀ I ∈ dis, ∀ p ∈ I.qns, 0 < p.2) → WF dis T.offsets T.size → HasFlux M dis T →
          (dis.map fun I => (I.qns.map (·.2)).sum).prod < fuel →
          (((dis.map fun I => (I.qns.map (·.2)).sum).prod : Nat) : Int) ≤ offMax →
          let rest := dis.filter fun I => I.key ∉ keys inds
          ∃ T' T'', mulQCombiner fuel fresh dis (c :: inds.map Index.dag) store T = some (.ok (c :: rest, T')) ∧
            mulQCombiner fuel fresh (c :: rest) ((c :: inds.map Index.dag).map Index.dag) store T' = some (.ok (inds ++ rest, T'')) ∧
            WF (c :: rest) T'.offsets T'.size ∧ HasFlux M (c :: rest) T' ∧
            WF (inds ++ rest) T''.offsets T''.size ∧ HasFlux M (inds ++ rest) T'' ∧
            ∀ ρ : Nat × Int × Nat × List Verif.TagSet.Tag → Nat, (∀ I ∈ dis, ρ I.key < (I.qns.map (·.2)).sum) →
              ∃ x, getElt T dis (dis.map fun I => ρ I.key) = .ok x ∧
                getElt T' (c :: rest) (Φ (inds.map fun I => ρ I.key) :: rest.map fun I => ρ I.key) = .ok x ∧
                getElt T'' (inds ++ rest) ((inds ++ rest).map fun I => ρ I.key) = .ok x) ∧
        ∀ (fresh : Int → K) (S : QDense K) (pre post : IndexSet), (∀ I ∈ pre ++ post, I.id ≠ id) →
          SectorsOK M u (pre ++ post) → (∀ I ∈ pre ++ post, I.qns ≠ []) → (∀ I ∈ pre ++ post, ∀ p ∈ I.qns, 0 < p.2) →
          WF (pre ++ c :: post) S.offsets S.size → HasFlux M (pre ++ c :: post) S →
          ((pre ++ inds ++ post).map fun I => (I.qns.map (·.2)).sum).prod < fuel →
          ((((pre ++ inds ++ post).map fun I => (I.qns.map (·.2)).sum).prod : Nat) : Int) ≤ offMax →
          ∃ S', mulQCombiner fuel fresh (pre ++ c :: post) ((c :: inds.map Index.dag).map Index.dag) store S =
              some (.ok (pre ++ inds ++ post, S')) ∧
            WF (pre ++ inds ++ post) S'.offsets S'.size ∧ HasFlux M (pre ++ inds ++ post) S' ∧
            ∀ ρ : Nat × Int × Nat × List Verif.TagSet.Tag → Nat, (∀ I ∈ pre ++ inds ++ post, ρ I.key < (I.qns.map (·.2)).sum) →
              ∃ x, getElt S (pre ++ c :: post) ((pre.map fun I => ρ I.key) ++ Φ (inds.map fun I => ρ I.key) ::
                  post.map fun I => ρ I.key) = .ok x ∧
                getElt S' (pre ++ inds ++ post) ((pre ++ inds ++ post).map fun I => ρ I.key) = .ok x := by
  have hsec' : ∀ I ∈ inds, 0 < I.nblock := fun I hI => List.length_pos_of_ne_nil (hsec I hI)
  have hpos' : PosSectors inds := by
    intro I hI s hs
    obtain ⟨p, hp, rfl⟩ := List.mem_map.1 hs
    exact hpos I hI p hp
  obtain ⟨c, store, h1, h2, h3, h4, hC⟩ := qcombiner_ok fuel id tags arg hne hsec' hok hf hmax
  obtain ⟨Φ, hΦ1, hΦ2⟩ := combVal hC
  have hcdir : c.dir = 1 ∨ c.dir = -1 := by
    rw [h3]; unfold combDir
    cases arg with
    | some a => exact harg a rfl
    | none => dsimp only; split <;> simp
  have hdagdag : (inds.map Index.dag).map Index.dag = inds := by
    rw [List.map_map]
    conv_rhs => rw [← List.map_id inds]
    refine List.map_congr_left fun I hI => ?_
    obtain ⟨i1, i2, i3, i4, i5⟩ := I
    have := hdirs _ hI
    dsimp only at this
    rcases this with e | e <;> subst e <;> rfl
  refine ⟨c, store, h1, Φ, by rw [h4]; exact hΦ1, ?_, ?_⟩
  rotate_left
  · intro fresh S pre post hid hokS hsecS hposS hS hSF hf2 hmax2
    have hposp : PosSectors (pre ++ inds ++ post) := by
      intro I hI s hs
      obtain ⟨p, hp, rfl⟩ := List.mem_map.1 hs
      simp only [List.mem_append] at hI
      rcases hI with (hI | hI) | hI
      · exact hposS I (by simp [hI]) p hp
      · exact hpos I hI p hp
      · exact hposS I (by simp [hI]) p hp
    obtain ⟨S', b1, b2, b3, b4⟩ := quncombine_ok (K := K) (pre := pre) (post := post) (cs := inds) (c := c) (c0 := c.dag) hC hcdir
      hposp (by
        refine ⟨hok.1, fun I hI => ?_⟩
        simp only [List.mem_append, List.mem_cons] at hI
        rcases hI with hI | rfl | hI
        · exact hokS.2 I (by simp [hI])
        · exact hC.sectors.2 I (by simp)
        · exact hokS.2 I (by simp [hI])) (by
        refine ⟨hok.1, fun I hI => ?_⟩
        simp only [List.mem_append] at hI
        rcases hI with (hI | hI) | hI
        · exact hokS.2 I (by simp [hI])
        · exact hok.2 I hI
        · exact hokS.2 I (by simp [hI])) (by
        intro I hI
        simp only [List.mem_append] at hI
        rcases hI with (hI | hI) | hI
        · exact List.length_pos_of_ne_nil (hsecS I (by simp [hI]))
        · exact hsec' I hI
        · exact List.length_pos_of_ne_nil (hsecS I (by simp [hI]))) (by simp [hne]) (d := S) hS hSF
      (fuel := fuel) hf2 hmax2
    refine ⟨S', ?_, b2, b3, ?_⟩
    · unfold mulQCombiner
      rw [List.map_cons, hdagdag]
      dsimp only
      have : indexPosition (pre ++ c :: post) c.dag = some pre.length := by
        unfold indexPosition
        rw [List.findIdx?_append, List.findIdx?_eq_none_iff.2, List.findIdx?_cons, if_pos (show c.eq c.dag = true from Index.eq_iff.2 rfl)]
        · simp
        · intro I hI
          rw [Bool.eq_false_iff]
          intro e
          exact hid I (by simp [hI]) ((Prod.mk.inj (Index.eq_iff.1 e)).1.trans h2)
      rw [this]
      exact b1
    · intro ρ hρ
      have hv1 : ∀ is : IndexSet, (∀ I ∈ is, I ∈ pre ++ inds ++ post) → Valid (dims is) (is.map fun I => ρ I.key) := by
        intro is his
        unfold Valid dims
        rw [List.forall₂_map_left_iff, List.forall₂_map_right_iff, List.forall₂_same]
        exact fun I hI => hρ I (his I hI)
      obtain ⟨bp, up, p1, p2, p3⟩ := exists_glue (hv1 pre (by intro I hI; simp [hI]))
      obtain ⟨bc, uc, g1, g2, g3⟩ := exists_glue (hv1 inds (by intro I hI; simp [hI]))
      obtain ⟨bq, uq, q1, q2, q3⟩ := exists_glue (hv1 post (by intro I hI; simp [hI]))
      obtain ⟨brg, q, m, k1, k2, _, k4, k5⟩ := hC.block bc g1
      have hlp : bp.length = pre.length := by rw [valid_length p1]; simp [nb]
      have hlup : up.length = pre.length := by rw [valid_length p2, bext_length p1]
      have hlc : bc.length = inds.length := by rw [valid_length g1]; simp [nb]
      have hluc : uc.length = inds.length := by rw [valid_length g2, bext_length g1]
      have hr := rank_lt g2
      unfold bdim at k4
      have hbs : bsize c brg.block = m := by
        simp only [bsize, szs, List.getD_eq_getElem?_getD, List.getElem?_map, k2, Option.map_some, Option.getD_some]
      refine ⟨elem S (pre ++ c :: post) (bp ++ brg.block :: bq) (up ++ (brg.start + rank (bext inds bc) uc) :: uq), ?_, ?_⟩
      · have := getElt_glue hS (b := bp ++ brg.block :: bq) (u := up ++ (brg.start + rank (bext inds bc) uc) :: uq)
          (by simp only [nb, List.map_append, List.map_cons]; exact valid_append p1 (.cons (List.getElem?_eq_some_iff.1 k2).1 q1)) (by
            rw [bext_append _ _ _ _ hlp]
            refine valid_append p2 ?_
            show Valid (bsize c brg.block :: bext post bq) _
            rw [hbs]
            exact .cons (by omega) q2)
        rw [glue_append hlp hlup] at this
        rw [← this, p3, g3, q3, hΦ2 bc uc brg g1 g2 k1]
        rfl
      · rw [List.map_append, List.map_append, p3, g3, q3, ← glue_append hlp hlup,
          ← glue_append (by simp [hlp, hlc]) (by simp [hlup, hluc]),
          getElt_glue b2 (by simp only [nb, List.map_append]; exact valid_append (valid_append p1 g1) q1) (by
            rw [bext_append _ _ _ _ (by simp [hlp, hlc]), bext_append _ _ _ _ hlp]
            exact valid_append (valid_append p2 g2) q2),
          b4 bp bc bq brg up uc uq p1 g1 q1 k1 p2 g2 q2]
  intro fresh T dis hsub hdnd hid hokd hsecd hposd hT hTF hf2 hmax2 rest
  have hsecd' : ∀ I ∈ dis, 0 < I.nblock := fun I hI => List.length_pos_of_ne_nil (hsecd I hI)
  have hposd' : PosSectors dis := by
    intro I hI s hs
    obtain ⟨p, hp, rfl⟩ := List.mem_map.1 hs
    exact hposd I hI p hp
  have hkd : keys (inds.map Index.dag) = keys inds := by
    simp only [keys, List.map_map]; rfl
  have hdis : dis ≠ [] := by
    rintro rfl
    cases inds with
    | nil => exact hne rfl
    | cons I l => exact absurd (hsub I (by simp)) (by simp)
  have hcomb : CombinesInds c (inds.map Index.dag) inds dis := ⟨hkd, hsub, hdnd, hnd, by
    intro hk
    obtain ⟨I, hI, e⟩ := List.mem_map.1 hk
    refine hid I hI ?_
    rw [← h2]
    exact (Prod.mk.inj e).1⟩
  have hrest : restOf (inds.map Index.dag) dis = rest := by
    unfold restOf; rw [hkd]
  have hperm := hcomb.perm
  rw [hrest] at hperm
  have hdimp : (dims (inds ++ rest)).prod = (dims dis).prod := (hperm.map _).prod_eq.symm
  have hdimc : (dims (c :: rest)).prod = (dims dis).prod := by
    rw [← hdimp]
    have := hC.dim
    simp only [dims, List.map_cons, List.prod_cons, List.map_nil, List.prod_nil, Nat.mul_one, List.map_append, List.prod_append] at this ⊢
    rw [this]
  have hposc : PosSectors (c :: rest) := by
    intro I hI
    rcases List.mem_cons.1 hI with rfl | hI
    · exact hC.pos hpos' I (by simp)
    · exact hposd' I (List.mem_filter.1 hI).1
  have hposp : PosSectors (inds ++ rest) := fun I hI => hposd' I (hperm.mem_iff.2 hI)
  have hszT := size_le hT
  have hnbc := nb_le_dims hposc
  have hcn : 0 < c.nblock := by
    have : Valid (nb inds) (unrank (nb inds) 0) := unrank_valid (List.prod_pos fun x hx => by
      obtain ⟨I, hI, rfl⟩ := List.mem_map.1 hx; exact hsec' I hI)
    obtain ⟨br, _, _, _, k2, _⟩ := hC.block _ this
    have := (List.getElem?_eq_some_iff.1 k2).1
    unfold Index.nblock; omega
  have hdd : (dims dis).prod < fuel := hf2
  have hdm : ((dims dis).prod : Int) ≤ offMax := hmax2
  obtain ⟨T', a1, a2, a3, _, a4⟩ := qcombine_ok hcomb (by simp only [nb, List.map_map]; rfl) hcdir hC hposd' hokd hsecd' hcn hdis hT hTF
    (fuel := fuel) (by omega) (by omega) (by rw [hrest]; omega) (by rw [hrest]; omega) fresh
  rw [hrest] at a1 a2 a3 a4
  have hokp : SectorsOK M u (inds ++ rest) := ⟨hokd.1, fun I hI => hokd.2 I (hperm.mem_iff.2 hI)⟩
  have hokc : SectorsOK M u (c :: rest) := ⟨hokd.1, fun I hI => by
    rcases List.mem_cons.1 hI with rfl | hI
    · exact hC.sectors.2 I (by simp)
    · exact hokd.2 I (List.mem_filter.1 hI).1⟩
  obtain ⟨T'', b1, b2, b3, b4⟩ := quncombine_ok (K := K) (pre := []) (post := rest) (cs := inds) (c := c) (c0 := c.dag) hC hcdir
    (by simpa using hposp) (by simpa using hokc) (by simpa using hokp)
    (by intro I hI; exact hsecd' I (hperm.mem_iff.2 (by simpa using hI))) (by simp [hne]) (d := T') a2 a3
    (fuel := fuel) (by simp only [List.nil_append]; omega) (by simp only [List.nil_append]; omega)
  simp only [List.nil_append, List.length_nil] at b1 b2 b3 b4
  refine ⟨T', T'', ?_, ?_, a2, a3, b2, b3, ?_⟩
  · unfold mulQCombiner
    dsimp only
    rw [Verif.Net.indexPosition_none.2 hcomb.notc]
    exact a1
  · unfold mulQCombiner
    rw [List.map_cons, hdagdag]
    dsimp only
    have : indexPosition (c :: rest) c.dag = some 0 := by
      unfold indexPosition
      rw [List.findIdx?_cons, if_pos]
      exact Index.eq_iff.2 rfl
    rw [this]
    exact b1
  · intro ρ hρ
    have hv1 : ∀ is : IndexSet, (∀ I ∈ is, I ∈ dis) → Valid (dims is) (is.map fun I => ρ I.key) := by
      intro is his
      unfold Valid dims
      rw [List.forall₂_map_left_iff, List.forall₂_map_right_iff, List.forall₂_same]
      exact fun I hI => hρ I (his I hI)
    have hrs : ∀ I ∈ rest, I ∈ dis := fun I hI => (List.mem_filter.1 hI).1
    obtain ⟨bc, uc, g1, g2, g3⟩ := exists_glue (hv1 inds hsub)
    obtain ⟨br, ur, g4, g5, g6⟩ := exists_glue (hv1 rest hrs)
    obtain ⟨brg, q, m, k1, k2, _, k4, k5⟩ := hC.block bc g1
    have hM := hcomb.matches
    rw [hrest] at hM
    set P := dis.map (destOf (inds.map Index.dag) dis) with hP
    have hlc : bc.length = inds.length := by rw [valid_length g1]; simp [nb]
    have hluc : uc.length = inds.length := by rw [valid_length g2, bext_length g1]
    have hva : Valid (nb (inds ++ rest)) (bc ++ br) := by
      simp only [nb, List.map_append]; exact valid_append g1 g4
    have hvu : Valid (bext (inds ++ rest) (bc ++ br)) (uc ++ ur) := by
      rw [bext_append _ _ _ _ hlc]; exact valid_append g2 g5
    have hvu2 : Valid (bext dis (pk P (bc ++ br))) (pk P (uc ++ ur)) := by
      rw [hM.bext hva]
      exact Match.valid_pk hM.perm (by rw [bext_length hva, hM.len1]) hvu
    have hpk : dis.map (fun I => ρ I.key) = pk P ((inds ++ rest).map fun I => ρ I.key) := by
      have hL := hcomb.labelPerm
      rw [hrest] at hL
      apply List.ext_getElem?
      intro i
      by_cases hi : i < P.length
      · have hd := List.getElem?_eq_getElem hi
        obtain ⟨I, J, hI, hJ, _⟩ := hM.get hd
        rw [pk_get hd (by simpa using (List.getElem?_eq_some_iff.1 hI).1)]
        have := hL.2.2.2 i _ hd
        rw [hI, hJ] at this
        rw [List.getElem?_map, List.getElem?_map, hI, hJ, Option.some.inj this]
      · rw [List.getElem?_eq_none (by rw [List.length_map, ← hM.len2]; omega),
          List.getElem?_eq_none (by rw [pk_length]; omega)]
    have hgl : (inds ++ rest).map (fun I => ρ I.key) = glue (inds ++ rest) (bc ++ br) (uc ++ ur) := by
      rw [List.map_append, g3, g6, glue_append hlc hluc]
    refine ⟨elem T dis (pk P (bc ++ br)) (pk P (uc ++ ur)), ?_, ?_, ?_⟩
    · rw [hpk, hgl, ← hM.glue hva hvu]
      exact getElt_glue hT (hM.valid hva) hvu2
    · have hbs : bsize c brg.block = m := by
        simp only [bsize, szs, List.getD_eq_getElem?_getD, List.getElem?_map, k2, Option.map_some, Option.getD_some]
      have hr := rank_lt g2
      unfold bdim at k4
      have w1 : Valid (nb (c :: rest)) (brg.block :: br) := .cons (List.getElem?_eq_some_iff.1 k2).1 g4
      have w2 : Valid (bext (c :: rest) (brg.block :: br)) ((brg.start + rank (bext inds bc) uc) :: ur) := by
        show Valid (bsize c brg.block :: bext rest br) _
        rw [hbs]
        refine .cons (by omega) g5
      have := getElt_glue a2 w1 w2
      rw [a4 bc br brg _ ur g1 g4 k1 (by omega) g5, unrank_rank g2] at this
      rw [← this, g3, hΦ2 bc uc brg g1 g2 k1, g6]
      rfl
    · have hr := rank_lt g2
      unfold bdim at k4
      rw [hgl, getElt_glue b2 hva hvu]
      have := b4 [] bc br brg [] uc ur .nil g1 g4 k1 .nil g2 g5
      simp only [List.nil_append] at this
      rw [this, a4 bc br brg _ ur g1 g4 k1 (by omega) g5, unrank_rank g2]

end

/-! ## Examples -/

/-- A tensor with three indices and one block of two elements. -/
def exT : QDense Int := ⟨[⟨[0, 1, 1], 0⟩], 2, fun a => 7 + a⟩

/-- Its indices. -/
def exT_is : IndexSet := [exI 2 (-1), exI 3 1, exI 1 1]

theorem exT_wf : WF exT_is exT.offsets exT.size := by
  refine ⟨by unfold SortedOff exT; simp, ?_, rfl, rfl⟩
  intro o ho
  have : o = ⟨[0, 1, 1], 0⟩ := by simpa [exT] using ho
  subst this
  exact .cons (by decide) (.cons (by decide) (.cons (by decide) .nil))

theorem exT_flux (M) : HasFlux M exT_is exT := by
  intro o ho o' ho' n
  have h1 : o = ⟨[0, 1, 1], 0⟩ := by simpa [exT] using ho
  have h2 : o' = ⟨[0, 1, 1], 0⟩ := by simpa [exT] using ho'
  rw [h1, h2]

theorem exT_sectors : SectorsOK (fun _ => 1) [Verif.TagSet.Tag.ofBytes [83, 122]] exT_is := by
  refine ⟨by decide, ?_⟩
  intro I hI q hq
  have hq' : q = (exQ 1, 2) ∨ q = (exQ (-1), 1) := by
    have hI' : I = exI 2 (-1) ∨ I = exI 3 1 ∨ I = exI 1 1 := by simpa [exT_is] using hI
    rcases hI' with rfl | rfl | rfl <;> simpa [exI] using hq
  rcases hq' with rfl | rfl
  · exact ⟨exQ_ok _ (by simp), by decide⟩
  · exact ⟨exQ_ok _ (by simp), by decide⟩

/-- The hypotheses of `C26_qn` hold for it: the indices 1 and 2, which are its last and its first, are combined. -/
example : ∃ c store T' T'', qcombiner 100 9 ⟨List.replicate 4 Verif.TagSet.Tag.empty, -1, 0⟩ none [exI 1 1, exI 2 (-1)] =
      some (.ok (c :: [exI 1 1, exI 2 (-1)].map Index.dag, store)) ∧
    mulQCombiner 100 (fun _ => 0) exT_is (c :: [exI 1 1, exI 2 (-1)].map Index.dag) store exT = some (.ok ([c, exI 3 1], T')) ∧
    mulQCombiner 100 (fun _ => 0) [c, exI 3 1] ((c :: [exI 1 1, exI 2 (-1)].map Index.dag).map Index.dag) store T' =
      some (.ok ([exI 1 1, exI 2 (-1), exI 3 1], T'')) ∧
    getElt T'' [exI 1 1, exI 2 (-1), exI 3 1] [2, 1, 2] = .ok 8 := by
  obtain ⟨c, store, h1, Φ, _, h3, _⟩ := C26_qn (K := Int) 100 9 ⟨List.replicate 4 Verif.TagSet.Tag.empty, -1, 0⟩ none
    (inds := [exI 1 1, exI 2 (-1)]) (by simp) exSectors (by simp) (by decide) (by decide) (by decide) (by decide) (by decide) (by decide)
  obtain ⟨T', T'', e1, e2, _, _, _, _, e3⟩ := h3 (fun _ => 0) exT exT_is (by decide) (by decide) (by decide) exT_sectors (by decide)
    (by decide) exT_wf (exT_flux _) (by decide) (by decide)
  have hr : exT_is.filter (fun I => I.key ∉ keys [exI 1 1, exI 2 (-1)]) = [exI 3 1] := by rfl
  rw [hr] at e1 e2 e3
  refine ⟨c, store, T', T'', h1, e1, e2, ?_⟩
  obtain ⟨x, x1, _, x3⟩ := e3 (fun k => if k = (exI 2 (-1)).key then 1 else 2) (by decide)
  have : getElt exT exT_is (exT_is.map fun I => if I.key = (exI 2 (-1)).key then 1 else 2) = .ok 8 := by decide +kernel
  rw [this] at x1
  rw [← Res.ok.inj x1] at x3
  exact x3

/-- The combined tensor computed: the block of `exT` becomes the block with sector `Sz=-2` of the new index. -/
example : ∃ p, qcombiner 100 9 ⟨List.replicate 4 Verif.TagSet.Tag.empty, -1, 0⟩ none [exI 1 1, exI 2 (-1)] = some (.ok p) ∧
    (mulQCombiner 100 (fun _ => 0) exT_is p.1 p.2 exT).map (fun r => r.map fun p =>
      (p.2.offsets.map (·.block), p.2.offsets.map (·.offset), p.2.size, (List.range p.2.size).map fun a => p.2.data a)) =
    some (.ok ([[1, 1]], [0], 2, [7, 8])) := by
  refine ⟨_, qcombiner_run 100 9 _ none (by simp) (by decide) (by decide) (by decide), ?_⟩
  decide +kernel

/-- **C26, a missing index.** A combiner with an index which the tensor lacks is reported as an error for dense tensors
(`C26_missing`). For QN tensors the check is in debug builds only, and the permutation leaves its range. -/
theorem C26_qn_missing_counterexample :
    ∃ Cis store, qcombiner 100 9 ⟨List.replicate 4 Verif.TagSet.Tag.empty, -1, 0⟩ none [exI 1 1, exI 2 (-1)] = some (.ok (Cis, store)) ∧
      mulQCombiner 100 (fun _ => 0) [exI 1 1, exI 3 (-1)] Cis store exD = some .ub := by
  refine ⟨_, _, qcombiner_run 100 9 _ none (by simp) (by decide) (by decide) (by decide), ?_⟩
  generalize hx : mulQCombiner (K := Int) _ _ _ _ _ _ = x
  have h : x.map (fun r => r.map fun _ => ()) = some .ub := by rw [← hx]; decide +kernel
  clear hx
  match x, h with
  | some .ub, _ => rfl

end Verif.QDense
