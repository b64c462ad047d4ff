import Verif.QDense.Insert
import Verif.QN.Props

/-!
# Block-sparse storage: properties C21, C22

`WF is offs size` (Lemmas) is the invariant of `QDense` storage; `C21_regions` says what it means for
memory.  An index here carries its list of sectors; its dimension is the sum of the sector sizes.
-/

namespace Verif.QDense

open Verif.Index (Index IndexSet)
open Verif.Tensor
open Verif.QN (IsQN norm)

/-! ## C21 -/

/-- The value of name `n` in the flux of a block: sum over the indices of arrow times the value of
the sector's quantum number. -/
def fluxVal (is : IndexSet) (b : Block) (n : Verif.QN.Name) : Int :=
  (List.zipWith (fun (I : Index) (x : Nat) =>
    ((I.qns.getD x (Verif.QN.QN.default, 0)).1).val n * I.dir) is b).sum

/-- All quantum numbers of the sectors are built by the API with the moduli `M` and use together at
most four names, those of `u`. -/
def SectorsOK (M : Verif.QN.Name → Int) (u : List Verif.QN.Name) (is : IndexSet) : Prop :=
  u.length ≤ 4 ∧ ∀ I ∈ is, ∀ q ∈ I.qns, IsQN M q.1 ∧ ∀ v ∈ q.1, v.active = true → v.name ∈ u

theorem isQN_add_names {M : Verif.QN.Name → Int} {a b : Verif.QN.QN} (ha : IsQN M a) (hb : IsQN M b)
    {u : List Verif.QN.Name} (hu : u.length ≤ 4) (h1 : ∀ v ∈ a, v.active = true → v.name ∈ u)
    (h2 : ∀ v ∈ b, v.active = true → v.name ∈ u) :
    IsQN M (a.add b) ∧ (∀ n, (a.add b).val n = norm (M n) (a.val n + b.val n)) ∧
      ∀ v ∈ a.add b, v.active = true → v.name ∈ u := by
  have hf : Verif.QN.FitsQ a b := ⟨u, hu, h1, h2⟩
  obtain ⟨g1, g2⟩ := Verif.QN.C06_add_val ha hb hf
  refine ⟨g1, g2, ?_⟩
  obtain ⟨l, ha⟩ := ha
  obtain ⟨m, hb⟩ := hb
  obtain ⟨r, hr, hn, _⟩ := Verif.QN.add_spec ha hb (hf.fits ha hb)
  intro v hv hv2
  rcases (hn v.name).1 ⟨v, hr.mem_active.1 ⟨hv, hv2⟩, rfl⟩ with ⟨w, hw, e⟩ | ⟨w, hw, e⟩
  · rw [← e]; have := ha.mem_active.2 hw; exact h1 w this.1 this.2
  · rw [← e]; have := hb.mem_active.2 hw; exact h2 w this.1 this.2

theorem isQN_scale_names {M : Verif.QN.Name → Int} {a : Verif.QN.QN} (ha : IsQN M a) (d : Int)
    {u : List Verif.QN.Name} (h1 : ∀ v ∈ a, v.active = true → v.name ∈ u) :
    ∀ v ∈ a.scale d, v.active = true → v.name ∈ u := by
  obtain ⟨l, ha⟩ := ha
  intro v hv hv2
  obtain ⟨w, hw, e⟩ := List.mem_map.1 ((Verif.QN.scale_wf ha d).1.mem_active.1 ⟨hv, hv2⟩)
  have := ha.mem_active.2 hw
  have := h1 w this.1 this.2
  rw [← e]; exact this

theorem isQN_val_norm {M : Verif.QN.Name → Int} {a : Verif.QN.QN} (ha : IsQN M a) (n : Verif.QN.Name) :
    norm (M n) (a.val n) = a.val n := by
  obtain ⟨l, h⟩ := ha
  rw [h.val]
  unfold Verif.QN.lval
  cases hf : l.find? (·.name == n) with
  | none => simp
  | some v =>
    have h1 := List.mem_of_find?_eq_some hf
    have h2 : v.name = n := by simpa using List.find?_some hf
    simp only
    rw [← h2, ← h.mod v h1]
    exact h.red v h1

theorem fluxOf_val {M : Verif.QN.Name → Int} {u : List Verif.QN.Name} {is : IndexSet}
    (h : SectorsOK M u is) {b : Block} (hb : Valid (nb is) b) {q : Verif.QN.QN} (hq : IsQN M q)
    (hqu : ∀ v ∈ q, v.active = true → v.name ∈ u) :
    IsQN M (fluxOf is b q) ∧
      ∀ n, norm (M n) ((fluxOf is b q).val n) = norm (M n) (q.val n + fluxVal is b n) := by
  induction is generalizing b q with
  | nil => cases hb; exact ⟨hq, by simp [fluxOf, fluxVal]⟩
  | cons I is ih =>
    simp only [nb, List.map_cons] at hb
    cases hb with
    | cons h1 h2 =>
      rename_i x bs
      have hx : x < I.qns.length := h1
      have hget : I.qns.getD x (Verif.QN.QN.default, 0) = I.qns[x] := by
        rw [List.getD_eq_getElem?_getD, List.getElem?_eq_getElem hx]; rfl
      obtain ⟨hq1, hq2⟩ := h.2 I (by simp) I.qns[x] (List.getElem_mem hx)
      obtain ⟨hs1, hs2⟩ := Verif.QN.C06_scale_val hq1 I.dir
      obtain ⟨ha1, ha2, ha3⟩ := isQN_add_names hq hs1 h.1 hqu (isQN_scale_names hq1 I.dir hq2)
      simp only [fluxOf, hget]
      obtain ⟨g1, g2⟩ := ih ⟨h.1, fun J hJ => h.2 J (by simp [hJ])⟩ h2 ha1 ha3
      refine ⟨g1, fun n => ?_⟩
      rw [g2 n, ha2 n, hs2 n, Verif.QN.norm_add_norm_left, Int.add_right_comm,
        Verif.QN.norm_add_norm_right]
      simp only [fluxVal, List.zipWith_cons_cons, List.sum_cons, hget]
      ring_nf

/-- **C21.** What the invariant means for memory: the regions of the blocks lie inside the store, do
not overlap, and fill it. -/
theorem C21_regions {is : IndexSet} {offs : List BlOf} {size : Nat} (h : WF is offs size) :
    (∀ o ∈ offs, o.offset + (List.zipWith bsize is o.block).prod ≤ size) ∧
    ∀ p < size, ∃! o, o ∈ offs ∧ o.offset ≤ p ∧ p < o.offset + (List.zipWith bsize is o.block).prod := by
  refine ⟨fun o ho => (h.tile.bounds o ho).2, fun p hp => ?_⟩
  obtain ⟨o, ho, h1, h2⟩ := h.tile.cover p (Nat.zero_le _) hp
  refine ⟨o, ⟨ho, h1, h2⟩, ?_⟩
  rintro o' ⟨ho', h1', h2'⟩
  by_contra hne
  have := h.disjoint ho' ho hne
  unfold bdim bext at this h2
  omega

/-- **C21.** `QDense(is,div)`: the list of blocks has exactly the blocks whose flux is `div`, each
once and in increasing order, and their regions tile the store. -/
theorem C21_ofDiv {K : Type*} [Zero K] {M : Verif.QN.Name → Int} {u : List Verif.QN.Name}
    {is : IndexSet} (hne : is ≠ []) (hsec : ∀ I ∈ is, 0 < I.nblock) (hok : SectorsOK M u is)
    {div : Verif.QN.QN} (hdiv : IsQN M div) (fuel : Nat) (hf : (nb is).prod < fuel)
    (hmax : ((nb is).prod : Int) ≤ offMax) :
    ∃ d : QDense K, ofDiv fuel is div = some (.ok d) ∧ WF is d.offsets d.size ∧
      (∀ a, d.data a = 0) ∧
      ∀ b, (∃ o ∈ d.offsets, o.block = b) ↔
        List.Forall₂ (fun (x : Nat) (I : Index) => x < I.qns.length) b is ∧
          ∀ n, norm (M n) (fluxVal is b n) = div.val n := by
  have hext : Range.extents (Range.init (nb is)) = nb is := Range.extents_init _
  obtain ⟨l, h1, h2, _, _, _⟩ := C15_rangeIter 0 (Range.init (nb is)) (by
      intro e
      have := congrArg Range.extents e
      rw [hext] at this
      cases is with
      | nil => exact hne rfl
      | cons _ _ => simp [nb, Range.extents] at this)
    (by rw [hext]; intro x hx; obtain ⟨I, hI, rfl⟩ := List.mem_map.1 hx; exact hsec I hI)
    (by
      rw [hext]; intro i hi
      rw [Range.addr_init (valid_length hi)]
      have := rank_lt hi
      omega) fuel (by rw [hext]; exact hf)
  rw [hext] at h2
  have h2' : l.map (·.ind) = allInds (nb is) := by rw [h2]; simp
  have hval : ∀ b ∈ allInds (nb is), Valid (nb is) b := fun b hb => mem_allInds.1 hb
  obtain ⟨offs, size, g1, g2, g3⟩ := gboLoop_spec div (allInds (nb is)) hval 0
  have hwf : WF is offs size := wf_of_blocks ((allInds_sorted _).filter _)
    (fun b hb => hval b (List.mem_filter.1 hb).1) g2 g3
  refine ⟨⟨offs, size, fun _ => 0⟩, ?_, hwf, fun _ => rfl, ?_⟩
  · have hg : getBlockOffsets fuel is div = some (.ok (offs, size)) := by
      unfold getBlockOffsets
      split
      · exact absurd (by assumption) hne
      dsimp only
      rw [show is.map (·.nblock) = nb is from rfl, h1]
      dsimp only
      rw [h2', g1]
    unfold ofDiv
    rw [hg]
    rfl
  · intro b
    have : (∃ o ∈ offs, o.block = b) ↔ b ∈ offs.map (·.block) := by simp
    rw [this, g2, List.mem_filter, mem_allInds]
    have hforall : Valid (nb is) b ↔ List.Forall₂ (fun (x : Nat) (I : Index) => x < I.qns.length) b is := by
      unfold Valid nb
      rw [List.forall₂_map_right_iff]
      rfl
    rw [← hforall]
    refine and_congr_right fun hb => ?_
    obtain ⟨k1, k2⟩ := fluxOf_val hok hb (Verif.QN.isQN_default M)
      (by intro v hv hv2; have := (List.mem_replicate.1 hv).2; subst this; cases hv2)
    rw [Verif.QN.C07_eq_iff k1 hdiv]
    refine forall_congr' fun n => ?_
    have e := k2 n
    rw [isQN_val_norm k1 n] at e
    rw [e]
    have : (Verif.QN.QN.default).val n = 0 := by
      rw [(Verif.QN.WF.default M).val]; rfl
    rw [this, Int.zero_add]

section
variable {K : Type*} [CommRing K]

/-- **C21.** Writing an element, including the insertion of a missing block, keeps the invariant, and
the blocks afterwards are those before and the element's own. -/
theorem C21_setElt {is : IndexSet} {d : QDense K} (h : WF is d.offsets d.size) {ind : List Nat}
    (hi : Valid (is.map fun I => (I.qns.map (·.2)).sum) ind) (v : K) :
    ∃ d' b, setElt d is ind v = .ok d' ∧ WF is d'.offsets d'.size ∧
      List.Forall₂ (fun (x : Nat) (p : Index × Nat) =>
        ((p.1.qns.take x).map (·.2)).sum ≤ p.2 ∧ p.2 < ((p.1.qns.take (x + 1)).map (·.2)).sum)
        b (is.zip ind) ∧
      ∀ b', (∃ x ∈ d'.offsets, x.block = b') ↔ (b' = b ∨ ∃ x ∈ d.offsets, x.block = b') := by
  obtain ⟨b, u, hb, hu, rfl⟩ := exists_glue hi
  obtain ⟨d', h1, h2, h3, h4⟩ := setElt_glue h hb hu v
  refine ⟨d', b, h1, h2, ?_, h3⟩
  clear h h1 h2 h3 hi h4
  induction is generalizing b u with
  | nil => cases hb; exact List.Forall₂.nil
  | cons I is ih =>
    simp only [nb, List.map_cons] at hb
    cases hb with
    | cons h1 h2 =>
      rename_i x bs
      simp only [bext, List.zipWith_cons_cons] at hu
      cases hu with
      | cons h3 h4 =>
        rename_i y us
        simp only [glue, List.zip_cons_cons]
        refine List.Forall₂.cons ?_ (ih _ _ h2 h4)
        have hx : x < I.qns.length := h1
        have hbs : bsize I x = I.qns[x].2 := by
          have := blocksize0_ok h1
          unfold blocksize0 at this
          rw [List.getElem?_eq_getElem hx] at this
          simpa using this.symm
        have e : ((I.qns.take (x + 1)).map (·.2)).sum = ((I.qns.take x).map (·.2)).sum + bsize I x := by
          rw [List.take_succ_eq_append_getElem hx, hbs, List.map_append, List.sum_append]
          simp only [List.map_cons, List.map_nil, List.sum_cons, List.sum_nil, Nat.add_zero]
        rw [e]
        simp only [gl, szs, ← List.map_take]
        omega

/-! ## C22 -/

/-- **C22.** Block-sparse storage is a finite map from multi-indices to elements: after any sequence
of `set` operations (none of which is undefined) reading gives the value last set, or the element the
storage had before. -/
theorem C22_getset {is : IndexSet} {d : QDense K} (h : WF is d.offsets d.size)
    (ops : List (List Nat × K)) (hops : ∀ p ∈ ops, Valid (is.map fun I => (I.qns.map (·.2)).sum) p.1)
    (f : List Nat → K)
    (hf : ∀ ind, Valid (is.map fun I => (I.qns.map (·.2)).sum) ind → getElt d is ind = .ok (f ind)) :
    ∃ d', Res.foldM (fun s p => setElt s is p.1 p.2) d ops = .ok d' ∧ WF is d'.offsets d'.size ∧
      ∀ ind, Valid (is.map fun I => (I.qns.map (·.2)).sum) ind →
        getElt d' is ind = .ok (ops.foldl (fun g p => Function.update g p.1 p.2) f ind) := by
  induction ops generalizing d f with
  | nil => exact ⟨d, rfl, h, hf⟩
  | cons p ops ih =>
    obtain ⟨b, u, hb, hu, hp⟩ := exists_glue (hops p (by simp))
    obtain ⟨d1, h1, h2, _, h4⟩ := setElt_glue h hb hu p.2
    obtain ⟨d', g1, g2, g3⟩ := ih h2 (fun q hq => hops q (by simp [hq])) (Function.update f p.1 p.2) (by
      intro ind hi
      obtain ⟨b', u', hb', hu', rfl⟩ := exists_glue hi
      rw [getElt_glue h2 hb' hu', h4 b' u' hb' hu']
      by_cases he : b' = b ∧ u' = u
      · rw [if_pos he, he.1, he.2, hp, Function.update_self]
      · rw [if_neg he, Function.update_of_ne, ← hf _ hi, getElt_glue h hb' hu']
        intro e
        rw [hp] at e
        exact he (glue_inj hb' hu' hb hu e))
    refine ⟨d', ?_, g2, g3⟩
    simp only [Res.foldM, hp, h1, Res.bind_ok]
    exact g1

/-- **C22.** Reading any element of well-formed storage is defined: the value stored, or zero when the
block is absent. -/
theorem C22_get {is : IndexSet} {d : QDense K} (h : WF is d.offsets d.size) {ind : List Nat}
    (hi : Valid (is.map fun I => (I.qns.map (·.2)).sum) ind) :
    (∃ x, getElt d is ind = .ok x) ∧ (d.offsets = [] → getElt d is ind = .ok 0) := by
  obtain ⟨b, u, hb, hu, rfl⟩ := exists_glue hi
  refine ⟨⟨_, getElt_glue h hb hu⟩, fun he => ?_⟩
  rw [getElt_glue h hb hu]
  unfold elem
  rw [getBlock_notMem h hb (by simp [he])]

end

end Verif.QDense
