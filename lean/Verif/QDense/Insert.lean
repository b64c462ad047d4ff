import Verif.QDense.Lemmas

/-!
# Insertion of blocks, element access, lists of blocks: helper lemmas
-/

namespace Verif.QDense

open Verif.Index (Index IndexSet)
open Verif.Tensor

/-! ## Insertion -/

theorem insertLoc_le (b : Block) (l : List BlOf) : insertLoc b l ≤ l.length := by
  induction l with
  | nil => simp [insertLoc]
  | cons o l ih => simp only [insertLoc]; split <;> simp <;> omega

theorem insertLoc_spec {l : List BlOf} (h : SortedOff l) (b : Block) (hb : ∀ x ∈ l, x.block ≠ b) :
    (∀ x ∈ l.take (insertLoc b l), blockLt x.block b = true) ∧
      (∀ x ∈ l.drop (insertLoc b l), blockLt b x.block = true) := by
  induction l with
  | nil => simp
  | cons o l ih =>
    have hs := List.pairwise_cons.1 h
    have ih' := ih hs.2 (fun x hx => hb x (by simp [hx]))
    simp only [insertLoc]
    by_cases hg : blockGt b o.block = true
    · rw [if_pos hg]
      rw [blockGt_eq] at hg
      refine ⟨?_, by simpa using ih'.2⟩
      intro x hx
      rw [List.take_succ_cons] at hx
      rcases List.mem_cons.1 hx with rfl | hx
      · exact hg
      · exact ih'.1 x hx
    · rw [if_neg hg]
      rw [blockGt_eq] at hg
      have hob : blockLt b o.block = true := by
        cases hc : blockLt b o.block with
        | true => rfl
        | false => exact absurd (blockLt_total (by simpa using hg) hc) (hb o (by simp))
      refine ⟨by simp, ?_⟩
      intro x hx
      rw [List.drop_zero] at hx
      rcases List.mem_cons.1 hx with rfl | hx
      · exact hob
      · exact blockLt_trans hob (hs.1 x hx)

section
variable {K : Type*} [CommRing K]

theorem insertBlock_spec {is : IndexSet} {d : QDense K} (h : WF is d.offsets d.size) {b : Block}
    (hv : Valid (nb is) b) (hb : ∀ x ∈ d.offsets, x.block ≠ b) :
    ∃ d' o, insertBlock d is b = .ok (d', o) ∧ WF is d'.offsets d'.size ∧ (⟨b, o⟩ : BlOf) ∈ d'.offsets ∧
      (∀ b', (∃ x ∈ d'.offsets, x.block = b') ↔ (b' = b ∨ ∃ x ∈ d.offsets, x.block = b')) ∧
      d'.size = d.size + bdim is b ∧
      ∀ b' u, Valid (nb is) b' → Valid (bext is b') u → elem d' is b' u = elem d is b' u := by
  obtain ⟨hs1, hs2⟩ := insertLoc_spec h.sorted b hb
  set loc := insertLoc b d.offsets with hloc
  have hloc_le : loc ≤ d.offsets.length := insertLoc_le _ _
  set pre := d.offsets.take loc with hpre
  set post := d.offsets.drop loc with hpost
  have happ : d.offsets = pre ++ post := (List.take_append_drop _ _).symm
  have htile := h.tile
  rw [happ, Tile.append] at htile
  obtain ⟨k, ht1, ht2⟩ := htile
  have hk : newOffset d loc = k := by
    unfold newOffset
    have hgo : d.offsets[loc]? = post[0]? := by rw [hpost]; simp
    rw [hgo]
    cases hp : post with
    | nil =>
      rw [hp] at ht2
      simp only [List.length_nil, Nat.lt_irrefl, not_false_eq_true, getElem?_neg]
      exact ht2.symm
    | cons o os =>
      rw [hp] at ht2
      simp only [List.getElem?_cons_zero]
      exact ht2.1
  have hkd : k ≤ d.size := ht2.le
  set n := bdim is b with hn
  set post' := post.map (fun o => (⟨o.block, o.offset + n⟩ : BlOf)) with hpost'
  let d' : QDense K := ⟨pre ++ ⟨b, k⟩ :: post', d.size + n,
      fun a => if a < k then d.data a else if a < k + n then 0 else d.data (a - n)⟩
  have hmem : ∀ b', (∃ x ∈ d'.offsets, x.block = b') ↔ (b' = b ∨ ∃ x ∈ d.offsets, x.block = b') := by
    intro b'
    constructor
    · rintro ⟨x, hx, rfl⟩
      rcases List.mem_append.1 hx with hx | hx
      · exact Or.inr ⟨x, by rw [happ]; simp [hx], rfl⟩
      · rcases List.mem_cons.1 hx with rfl | hx
        · exact Or.inl rfl
        · obtain ⟨y, hy, rfl⟩ := List.mem_map.1 hx
          exact Or.inr ⟨y, by rw [happ]; simp [hy], rfl⟩
    · rintro (rfl | ⟨x, hx, rfl⟩)
      · exact ⟨⟨b', k⟩, by simp [d'], rfl⟩
      · rw [happ] at hx
        rcases List.mem_append.1 hx with hx | hx
        · exact ⟨x, by simp [d', hx], rfl⟩
        · exact ⟨⟨x.block, x.offset + n⟩, by
            refine List.mem_append_right _ (List.mem_cons_of_mem _ ?_)
            exact List.mem_map.2 ⟨x, hx, rfl⟩, rfl⟩
  have hWF : WF is d'.offsets d'.size := by
    refine ⟨?_, ?_, ?_⟩
    · have hpw := h.sorted
      rw [happ] at hpw
      have hpw' := List.pairwise_append.1 hpw
      refine List.pairwise_append.2 ⟨hpw'.1, ?_, ?_⟩
      · refine List.pairwise_cons.2 ⟨?_, ?_⟩
        · intro x hx
          obtain ⟨y, hy, rfl⟩ := List.mem_map.1 hx
          exact hs2 y hy
        · rw [hpost', List.pairwise_map]
          exact hpw'.2.1
      · intro x hx y hy
        rcases List.mem_cons.1 hy with rfl | hy
        · exact hs1 x hx
        · obtain ⟨z, hz, rfl⟩ := List.mem_map.1 hy
          exact hpw'.2.2 x hx z hz
    · intro o ho
      rcases (hmem o.block).1 ⟨o, ho, rfl⟩ with he | ⟨x, hx, he⟩
      · rw [he]; exact hv
      · rw [← he]; exact h.valid x hx
    · show Tile is (pre ++ ⟨b, k⟩ :: post') 0 (d.size + n)
      rw [Tile.append]
      exact ⟨k, ht1, rfl, ht2.shift⟩
  refine ⟨d', k, ?_, hWF, by simp [d'], hmem, rfl, ?_⟩
  · unfold insertBlock
    rw [blockDim_ok hv, Nat.one_mul]
    simp only [Res.bind_ok]
    rw [← hloc, hk, if_pos hkd]
  · intro b' u hb' hu
    have hr := rank_lt hu
    by_cases hbb : b' = b
    · subst hbb
      unfold elem
      rw [getBlock_notMem h hb' hb, getBlock_mem (o := ⟨b', k⟩) hWF (by simp [d'])]
      simp only [d']
      have hr' : rank (bext is b') u < n := hr
      rw [if_neg (by omega), if_pos (by omega)]
    · by_cases hm : ∃ x ∈ d.offsets, x.block = b'
      · obtain ⟨x, hx, rfl⟩ := hm
        have hxo := getBlock_mem h hx
        have hxx := hx
        rw [happ] at hx
        have hr' : rank (bext is x.block) u < bdim is x.block := hr
        rcases List.mem_append.1 hx with hx | hx
        · have := getBlock_mem (o := x) hWF (by simp [d', hx])
          unfold elem
          rw [this, hxo]
          simp only [d']
          have := (ht1.bounds x hx).2
          rw [if_pos (by omega)]
        · have := getBlock_mem (o := ⟨x.block, x.offset + n⟩) hWF (by
            refine List.mem_append_right _ (List.mem_cons_of_mem _ ?_)
            exact List.mem_map.2 ⟨x, hx, rfl⟩)
          unfold elem
          rw [this, hxo]
          simp only [d']
          have := (ht2.bounds x hx).1
          rw [if_neg (by omega), if_neg (by omega)]
          congr 1
          push_cast; ring
      · unfold elem
        rw [getBlock_notMem h hb' (fun x hx e => hm ⟨x, hx, e⟩),
          getBlock_notMem hWF hb' (fun x hx e => by
            rcases (hmem b').1 ⟨x, hx, e⟩ with h1 | h1
            · exact hbb h1
            · exact hm h1)]

theorem write_spec {is : IndexSet} {d : QDense K} (h : WF is d.offsets d.size) {b : Block} {o : Nat}
    (ho : (⟨b, o⟩ : BlOf) ∈ d.offsets) {u : List Nat} (hu : Valid (bext is b) u) (v : K) :
    ∃ d', write d (o + rank (bext is b) u) v = .ok d' ∧ d'.offsets = d.offsets ∧ d'.size = d.size ∧
      ∀ b' u', Valid (nb is) b' → Valid (bext is b') u' →
        elem d' is b' u' = if b' = b ∧ u' = u then v else elem d is b' u' := by
  have hr := rank_lt hu
  have hb := (h.tile.bounds _ ho).2
  unfold bdim at hb
  simp only at hb
  refine ⟨{ d with data := fun a => if a = ((o + rank (bext is b) u : Nat) : Int) then v else d.data a },
    by unfold write; rw [if_pos (by omega)], rfl, rfl, ?_⟩
  intro b' u' hb' hu'
  have hr' := rank_lt hu'
  unfold elem
  have hg : ∀ (f : Int → K), getBlock ({ d with data := f } : QDense K) b' = getBlock d b' := fun _ => rfl
  rw [hg]
  cases hgb : getBlock d b' with
  | none =>
    have : ¬ (b' = b ∧ u' = u) := by
      rintro ⟨rfl, _⟩
      rw [getBlock_mem (o := ⟨b', o⟩) h ho] at hgb
      exact absurd hgb (by simp)
    rw [if_neg this]
  | some o' =>
    have hm := getBlock_some h hb' hgb
    simp only
    by_cases hbb : b' = b
    · subst hbb
      have : (⟨b', o'⟩ : BlOf) = ⟨b', o⟩ := h.block_inj hm ho rfl
      have hoo : o' = o := by simpa using this
      subst hoo
      by_cases huu : u' = u
      · subst huu; simp
      · rw [if_neg (c := _ ∧ _) (by simp [huu]), if_neg ?_]
        intro e
        apply huu
        rw [← unrank_rank hu', ← unrank_rank hu]
        congr 1
        push_cast at e; omega
    · rw [if_neg (c := _ ∧ _) (by simp [hbb]), if_neg ?_]
      intro e
      have := h.disjoint hm ho (by intro e'; exact hbb (by simpa using congrArg BlOf.block e'))
      unfold bdim at this
      simp only at this
      push_cast at e
      omega

/-- Setting an element of well-formed storage. -/
theorem setElt_glue {is : IndexSet} {d : QDense K} (h : WF is d.offsets d.size) {b : Block} {u : List Nat}
    (hb : Valid (nb is) b) (hu : Valid (bext is b) u) (v : K) :
    ∃ d', setElt d is (glue is b u) v = .ok d' ∧ WF is d'.offsets d'.size ∧
      (∀ b', (∃ x ∈ d'.offsets, x.block = b') ↔ (b' = b ∨ ∃ x ∈ d.offsets, x.block = b')) ∧
      ∀ b' u', Valid (nb is) b' → Valid (bext is b') u' →
        elem d' is b' u' = if b' = b ∧ u' = u then v else elem d is b' u' := by
  unfold setElt
  rw [getEltBlockOffset_glue d hb hu]
  simp only [Res.bind_ok]
  cases hg : getBlock d b with
  | some o =>
    simp only [Option.map_some]
    have hm := getBlock_some h hb hg
    obtain ⟨d', h1, h2, h3, h4⟩ := write_spec h hm hu v
    refine ⟨d', h1, by rw [h2, h3]; exact h, ?_, h4⟩
    intro b'
    rw [h2]
    constructor
    · exact Or.inr
    · rintro (rfl | h')
      · exact ⟨_, hm, rfl⟩
      · exact h'
  | none =>
    simp only [Option.map_none]
    have hnm : ∀ x ∈ d.offsets, x.block ≠ b := by
      rintro x hx rfl
      rw [getBlock_mem h hx] at hg
      exact absurd hg (by simp)
    obtain ⟨d1, o, h1, h2, h3, h4, _, h5⟩ := insertBlock_spec h hb hnm
    rw [h1]
    simp only [Res.bind_ok]
    obtain ⟨d', g1, g2, g3, g4⟩ := write_spec h2 h3 hu v
    refine ⟨d', g1, by rw [g2, g3]; exact h2, by rw [g2]; exact h4, ?_⟩
    intro b' u' hb' hu'
    rw [g4 b' u' hb' hu', h5 b' u' hb' hu']

end

/-! ## Lists of blocks -/

theorem uoLoop_spec {is : IndexSet} (bs : List Block) (hv : ∀ b ∈ bs, Valid (nb is) b) (s : Nat) :
    ∃ l e, uoLoop is bs s = .ok (l, e) ∧ l.map (·.block) = bs ∧ Tile is l s e := by
  induction bs generalizing s with
  | nil => exact ⟨[], s, rfl, rfl, rfl⟩
  | cons b bs ih =>
    obtain ⟨l, e, h1, h2, h3⟩ := ih (fun b hb => hv b (by simp [hb])) (s + bdim is b)
    refine ⟨⟨b, s⟩ :: l, e, ?_, by simp [h2], rfl, h3⟩
    simp only [uoLoop, blockDim_ok (hv b (by simp)), Nat.one_mul, Res.bind_ok, h1]

theorem wf_of_blocks {is : IndexSet} {l : List BlOf} {e : Nat} {bs : List Block}
    (hs : bs.Pairwise (fun a b => blockLt a b = true)) (hv : ∀ b ∈ bs, Valid (nb is) b)
    (hl : l.map (·.block) = bs) (ht : Tile is l 0 e) : WF is l e := by
  refine ⟨?_, ?_, ht⟩
  · subst hl
    exact (List.pairwise_map.1 hs)
  · intro o ho
    apply hv
    rw [← hl]
    exact List.mem_map.2 ⟨o, ho, rfl⟩

theorem uoLoop_wf {is : IndexSet} {bs : List Block} (hs : bs.Pairwise (fun a b => blockLt a b = true))
    (hv : ∀ b ∈ bs, Valid (nb is) b) :
    ∃ l e, uoLoop is bs 0 = .ok (l, e) ∧ l.map (·.block) = bs ∧ WF is l e := by
  obtain ⟨l, e, h1, h2, h3⟩ := uoLoop_spec bs hv 0
  exact ⟨l, e, h1, h2, wf_of_blocks hs hv h2 h3⟩

/-- The flux of a block as the code sums it. -/
def fluxOf : IndexSet → Block → Verif.QN.QN → Verif.QN.QN
  | I :: is, b :: bs, q => fluxOf is bs (q.add (((I.qns.getD b (Verif.QN.QN.default, 0)).1).scale I.dir))
  | _, _, q => q

theorem blockQN_ok {is : IndexSet} {b : Block} (h : Valid (nb is) b) (q : Verif.QN.QN) :
    blockQN is b q = .ok (fluxOf is b q) := by
  induction is generalizing b q with
  | nil => cases h; simp [blockQN, fluxOf]
  | cons I is ih =>
    simp only [nb, List.map_cons] at h
    cases h with
    | cons h1 h2 =>
      rename_i x bs
      have hx : x < I.qns.length := h1
      simp only [blockQN, qn0, List.getElem?_eq_getElem hx, Res.bind_ok, ih h2, fluxOf]
      rw [List.getD_eq_getElem?_getD, List.getElem?_eq_getElem hx]
      rfl

theorem gboLoop_spec {is : IndexSet} (div : Verif.QN.QN) (bs : List Block)
    (hv : ∀ b ∈ bs, Valid (nb is) b) (s : Nat) :
    ∃ l e, gboLoop is div bs s = .ok (l, e) ∧
      l.map (·.block) = bs.filter (fun b => (fluxOf is b Verif.QN.QN.default).eq div) ∧ Tile is l s e := by
  induction bs generalizing s with
  | nil => exact ⟨[], s, rfl, rfl, rfl⟩
  | cons b bs ih =>
    simp only [gboLoop, blockQN_ok (hv b (by simp)), Res.bind_ok]
    by_cases hq : (fluxOf is b Verif.QN.QN.default).eq div = true
    · obtain ⟨l, e, h1, h2, h3⟩ := ih (fun b hb => hv b (by simp [hb])) (s + bdim is b)
      refine ⟨⟨b, s⟩ :: l, e, ?_, by simp [h2, hq], rfl, h3⟩
      rw [if_pos hq]
      simp only [blockDim_ok (hv b (by simp)), Nat.one_mul, Res.bind_ok, h1]
    · obtain ⟨l, e, h1, h2, h3⟩ := ih (fun b hb => hv b (by simp [hb])) s
      refine ⟨l, e, ?_, by simp [h2, hq], h3⟩
      rw [if_neg hq]
      exact h1

end Verif.QDense
