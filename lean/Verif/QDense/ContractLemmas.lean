import Verif.QDense.Labels
import Verif.Index.LabelFn

/-!
# Block-sparse contraction: the task list and one task
-/

namespace Verif.QDense

open Verif Verif.Tensor Verif.Index Finset

/-! ## Blocks of the product -/

theorem uniqBlocks_mem (l : List Block) (x : Block) : x ∈ uniqBlocks l ↔ x ∈ l := by
  induction l with
  | nil => simp [uniqBlocks]
  | cons a l ih =>
    cases l with
    | nil => simp [uniqBlocks]
    | cons b l =>
      rw [uniqBlocks]
      split_ifs with h
      · rw [ih, h]; simp
      · rw [List.mem_cons, ih, List.mem_cons (a := x) (b := a)]

theorem uniqBlocks_sorted (l : List Block) (h : l.Pairwise (fun a b => blockLt b a = false)) :
    SortedB (uniqBlocks l) := by
  induction l with
  | nil => simp [uniqBlocks]
  | cons a l ih =>
    cases l with
    | nil => simp [uniqBlocks]
    | cons b l =>
      rw [uniqBlocks]
      obtain ⟨h1, h2⟩ := List.pairwise_cons.1 h
      split_ifs with hab
      · exact ih h2
      · refine List.pairwise_cons.2 ⟨?_, ih h2⟩
        intro c hc
        rw [uniqBlocks_mem] at hc
        have hb := h1 b (by simp)
        have hlt : blockLt a b = true := by
          by_contra hn
          exact hab (blockLt_total (by simpa using hn) hb)
        rcases List.mem_cons.1 hc with rfl | hc
        · exact hlt
        · have hbc := (List.pairwise_cons.1 h2).1 c hc
          by_contra hn
          have hca := h1 c (by simp [hc])
          have e := blockLt_total (by simpa using hn) hca
          subst e
          rw [hlt] at hbc
          exact absurd hbc (by simp)

/-! ## Tasks -/

/-- How the indices of a product and their labels fit together. -/
structure PCtx (sz : Int → List Nat) (Lis Ris Nis : IndexSet) (La Rb Ci : List Int) : Prop where
  ok : LabelsOK La Rb Ci
  ord : Ci = La.filter (· ∈ Ci) ++ Rb.filter (· ∈ Ci)
  labL : Lab sz Lis La
  labR : Lab sz Ris Rb
  labN : Lab sz Nis Ci
  src : cSource Lis Ris Nis =
    .ok (Ci.map fun x => if x ∈ La then .inl (La.idxOf x) else .inr (Rb.idxOf x))
  atob : aToB Lis Ris = La.map fun x => if x ∈ Rb then some (Rb.idxOf x) else none
  pos : ∀ x, (x ∈ La ∨ x ∈ Rb) → ∀ s ∈ sz x, 0 < s

theorem blocksContract_iff {xs Rb : List Int} {β β' : Int → Nat} :
    blocksContract (xs.map fun x => if x ∈ Rb then some (Rb.idxOf x) else none) (xs.map β) (Rb.map β') = true
      ↔ ∀ x ∈ xs, x ∈ Rb → β x = β' x := by
  induction xs with
  | nil => simp [blocksContract]
  | cons x xs ih =>
    simp only [List.map_cons]
    by_cases hx : x ∈ Rb
    · have hi : Rb.idxOf x < Rb.length := List.idxOf_lt_length_iff.2 hx
      simp only [hx, if_true, blocksContract, List.getElem?_map, List.getElem?_eq_getElem hi,
        Option.map_some, List.getElem_idxOf]
      by_cases he : β x = β' x
      · simp [he, ih, hx]
      · simp [he, hx]
    · simp [hx, blocksContract, ih]

/-- The task of an assignment of sectors to labels. -/
def mkTask (La Rb Ci : List Int) (β : Int → Nat) : Task := ⟨La.map β, Rb.map β, Ci.map β⟩

theorem cBlock_map {La Rb Ci : List Int} (h : ∀ x ∈ Ci, x ∉ La → x ∈ Rb) (β : Int → Nat) :
    cBlock (Ci.map fun x => if x ∈ La then .inl (La.idxOf x) else .inr (Rb.idxOf x)) (La.map β) (Rb.map β)
      = Ci.map β := by
  unfold cBlock
  rw [List.map_map]
  apply List.map_congr_left
  intro x hx
  simp only [Function.comp]
  by_cases hl : x ∈ La
  · simp only [hl, if_true]; exact val_get hl
  · simp only [hl, if_false]; exact val_get (h x hx hl)

variable {sz : Int → List Nat} {Lis Ris Nis : IndexSet} {La Rb Ci : List Int}

theorem PCtx.cmem (h : PCtx sz Lis Ris Nis La Rb Ci) {x : Int} (hx : x ∈ Ci) : x ∈ La ∨ x ∈ Rb := by
  have := h.ok.c x hx
  tauto

theorem PCtx.ab (h : PCtx sz Lis Ris Nis La Rb Ci) {β : Int → Nat} {a b : Block} (ha : a.length = La.length)
    (hb : b.length = Rb.length) (hc : blocksContract (aToB Lis Ris) a b = true) :
    ∃ β : Int → Nat, a = La.map β ∧ b = Rb.map β := by
  have ea := val_map h.ok.nda ha
  have eb := val_map h.ok.ndb hb
  rw [h.atob, ← ea, ← eb, blocksContract_iff] at hc
  refine ⟨fun x => if x ∈ La then val La a x else val Rb b x, ?_, ?_⟩
  · conv_lhs => rw [← ea]
    apply List.map_congr_left
    intro x hx
    simp [hx]
  · conv_lhs => rw [← eb]
    apply List.map_congr_left
    intro x hx
    by_cases hl : x ∈ La
    · simp [hl, hc x hl hx]
    · simp [hl]

theorem PCtx.mem_tasks (h : PCtx sz Lis Ris Nis La Rb Ci) {Ab Bb : List Block}
    (hA : ∀ a ∈ Ab, Valid (nb Lis) a) (hB : ∀ b ∈ Bb, Valid (nb Ris) b) {t : Task} :
    t ∈ tasks Lis Ris (Ci.map fun x => if x ∈ La then .inl (La.idxOf x) else .inr (Rb.idxOf x)) Ab Bb ↔
      ∃ β : Int → Nat, (∀ x, (x ∈ La ∨ x ∈ Rb) → β x < lnb sz x) ∧ La.map β ∈ Ab ∧ Rb.map β ∈ Bb ∧
        t = mkTask La Rb Ci β := by
  have hcm : ∀ x ∈ Ci, x ∉ La → x ∈ Rb := fun x hx hl => (h.cmem hx).resolve_left hl
  unfold tasks
  simp only [List.mem_flatMap, List.mem_map, List.mem_filter]
  constructor
  · rintro ⟨a, ha, b, ⟨hb, hc⟩, rfl⟩
    have va := hA a ha
    have vb := hB b hb
    obtain ⟨β, rfl, rfl⟩ := h.ab (β := fun _ => 0)
      (by rw [valid_length va, ← h.labL.length]; simp [nb])
      (by rw [valid_length vb, ← h.labR.length]; simp [nb]) hc
    rw [h.labL.nb, valid_map] at va
    rw [h.labR.nb, valid_map] at vb
    exact ⟨β, fun x hx => hx.elim (va x) (vb x), ha, hb, by rw [cBlock_map hcm]; rfl⟩
  · rintro ⟨β, hβ, ha, hb, rfl⟩
    refine ⟨_, ha, _, ⟨hb, ?_⟩, by rw [cBlock_map hcm]; rfl⟩
    rw [h.atob, blocksContract_iff]
    intros; rfl

theorem tasks_nodup {src : List (Nat ⊕ Nat)} {Ab Bb : List Block} (hA : Ab.Nodup) (hB : Bb.Nodup) :
    (tasks Lis Ris src Ab Bb).Nodup := by
  unfold tasks
  rw [List.nodup_flatMap]
  refine ⟨fun a _ => (hB.filter _).map_on (by intro b _ b' _ e; simpa using (Task.mk.inj e).2.1), ?_⟩
  refine hA.imp ?_
  intro a a' haa
  rw [Function.onFun, List.disjoint_left]
  intro t h1 h2
  obtain ⟨b, _, rfl⟩ := List.mem_map.1 h1
  obtain ⟨b', _, e⟩ := List.mem_map.1 h2
  exact haa (Task.mk.inj e).1.symm

/-! ## Sums -/

section
variable {K : Type*} [CommRing K]

theorem sumOver_congr2 {X : Type*} [DecidableEq X] {ext ext' : X → Nat} {cs : List X} {F G : (X → Nat) → K}
    {ρ ρ' : X → Nat} (he : ∀ x ∈ cs, ext x = ext' x)
    (h : ∀ σ σ' : X → Nat, (∀ x ∈ cs, σ x = σ' x ∧ σ x < ext x) → (∀ x, x ∉ cs → σ x = ρ x) →
      (∀ x, x ∉ cs → σ' x = ρ' x) → F σ = G σ') (hnd : cs.Nodup) :
    sumOver ext cs F ρ = sumOver ext' cs G ρ' := by
  induction cs generalizing ρ ρ' with
  | nil => exact h ρ ρ' (by simp) (by simp) (by simp)
  | cons x cs ih =>
    simp only [sumOver]
    rw [← he x (by simp)]
    refine sum_congr rfl fun v hv => ?_
    obtain ⟨hx, hnd'⟩ := List.nodup_cons.1 hnd
    refine ih (fun y hy => he y (by simp [hy])) (fun σ σ' h1 h2 h3 => ?_) hnd'
    have hσx : σ x = v := by rw [h2 x hx, Function.update_self]
    have hσx' : σ' x = v := by rw [h3 x hx, Function.update_self]
    refine h σ σ' ?_ ?_ ?_
    · intro y hy
      rcases List.mem_cons.1 hy with rfl | hy
      · rw [hσx, hσx']; exact ⟨rfl, mem_range.1 hv⟩
      · exact h1 y hy
    · intro y hy
      rw [h2 y (fun hc => hy (by simp [hc])), Function.update_of_ne]
      rintro rfl
      exact hy (by simp)
    · intro y hy
      rw [h3 y (fun hc => hy (by simp [hc])), Function.update_of_ne]
      rintro rfl
      exact hy (by simp)

/-- The sectors a task stands for. -/
def asg (La Rb : List Int) (t : Task) (x : Int) : Nat := if x ∈ La then val La t.a x else val Rb t.b x

/-- The contribution of one task to the element `u` of its block of `C`. -/
def contr (sz : Int → List Nat) (Lis Ris : IndexSet) (La Rb Ci : List Int) (A B : QDense K) (t : Task)
    (u : List Nat) : K :=
  sumOver (lext sz (asg La Rb t)) (La.filter (· ∈ Rb))
    (fun σ => elem A Lis t.a (La.map σ) * elem B Ris t.b (Rb.map σ)) (val Ci u)

theorem asg_mk (β : Int → Nat) {x : Int} (hx : x ∈ La ∨ x ∈ Rb) : asg La Rb (mkTask La Rb Ci β) x = β x := by
  unfold asg mkTask
  by_cases hl : x ∈ La
  · rw [if_pos hl]; exact val_get hl
  · rw [if_neg hl]; exact val_get (hx.resolve_left hl)

theorem PCtx.contr_mk (h : PCtx sz Lis Ris Nis La Rb Ci) (A B : QDense K) (β υ : Int → Nat) :
    contr sz Lis Ris La Rb Ci A B (mkTask La Rb Ci β) (Ci.map υ) =
      sumOver (lext sz β) (La.filter (· ∈ Rb))
        (fun σ => elem A Lis (La.map β) (La.map σ) * elem B Ris (Rb.map β) (Rb.map σ)) υ := by
  unfold contr
  refine sumOver_congr2 ?_ ?_ (h.ok.nda.filter _)
  · intro x hx
    rw [lext, asg_mk β (Or.inl (List.mem_filter.1 hx).1)]
    rfl
  · intro σ σ' h1 h2 h3
    have agree : ∀ x, x ∈ La ∨ x ∈ Rb → σ x = σ' x := by
      intro x hx
      by_cases hc : x ∈ La.filter (· ∈ Rb)
      · exact (h1 x hc).1
      · rw [h2 x hc, h3 x hc]
        refine val_get ?_
        simp only [List.mem_filter, decide_eq_true_eq, not_and] at hc
        rcases hx with hx | hx
        · have := h.ok.a x hx; have := hc hx; tauto
        · have := h.ok.b x hx
          by_contra hn
          exact hc (this.2 hn) hx
    have e1 : La.map σ = La.map σ' := List.map_congr_left fun x hx => agree x (Or.inl hx)
    have e2 : Rb.map σ = Rb.map σ' := List.map_congr_left fun x hx => agree x (Or.inr hx)
    rw [e1, e2]
    rfl

end

/-! ## One task -/

section
variable {K : Type*} [CommRing K] [DecidableEq K]

theorem lab_pos (h : PCtx sz Lis Ris Nis La Rb Ci) {β : Int → Nat}
    (hβ : ∀ x, (x ∈ La ∨ x ∈ Rb) → β x < lnb sz x) {x : Int} (hx : x ∈ La ∨ x ∈ Rb) : 0 < lext sz β x := by
  apply h.pos x hx
  have := hβ x hx
  unfold lnb at this
  simp only [lext, List.getD_eq_getElem?_getD, List.getElem?_eq_getElem this, Option.getD_some]
  exact List.getElem_mem _

theorem doContract_spec (h : PCtx sz Lis Ris Nis La Rb Ci) {A B : QDense K}
    (hA : WF Lis A.offsets A.size) (hB : WF Ris B.offsets B.size) {Coff : List BlOf} {Csize : Nat}
    (hC : WF Nis Coff Csize) {fuel : Nat} (hfa : A.size < fuel) (hfb : B.size < fuel) (hfc : Csize < fuel)
    (hma : (A.size : Int) ≤ offMax) (hmb : (B.size : Int) ≤ offMax) (hmc : (Csize : Int) ≤ offMax)
    (junk : Int → K) (s : CState K) {β : Int → Nat} (hβ : ∀ x, (x ∈ La ∨ x ∈ Rb) → β x < lnb sz x)
    (ha : La.map β ∈ A.offsets.map (·.block)) (hb : Rb.map β ∈ B.offsets.map (·.block))
    (hc : Ci.map β ∈ Coff.map (·.block)) :
    ∃ s', doContract fuel Lis Ris Nis La Rb Ci A B Coff Csize junk s (mkTask La Rb Ci β) = some (.ok s') ∧
      (∀ k, s'.betas k = if k = lowerBound Coff (Ci.map β) then 1 else s.betas k) ∧
      ∀ c u, Valid (nb Nis) c → Valid (bext Nis c) u →
        elem ⟨Coff, Csize, s'.data⟩ Nis c u = if c = Ci.map β then
            contr sz Lis Ris La Rb Ci A B (mkTask La Rb Ci β) u +
              s.betas (lowerBound Coff c) * elem ⟨Coff, Csize, s.data⟩ Nis c u
          else elem ⟨Coff, Csize, s.data⟩ Nis c u := by
  obtain ⟨ao, hao, eao⟩ := List.mem_map.1 ha
  obtain ⟨bo, hbo, ebo⟩ := List.mem_map.1 hb
  obtain ⟨co, hco, eco⟩ := List.mem_map.1 hc
  have va : Valid (nb Lis) (La.map β) := by rw [← eao]; exact hA.valid ao hao
  have vb : Valid (nb Ris) (Rb.map β) := by rw [← ebo]; exact hB.valid bo hbo
  have vc : Valid (nb Nis) (Ci.map β) := by rw [← eco]; exact hC.valid co hco
  have ga : getBlock A (La.map β) = some ao.offset := by rw [← eao]; exact getBlock_mem hA hao
  have gb : getBlock B (Rb.map β) = some bo.offset := by rw [← ebo]; exact getBlock_mem hB hbo
  have gc : ∀ dd, getBlock (⟨Coff, Csize, dd⟩ : QDense K) (Ci.map β) = some co.offset := by
    intro dd; rw [← eco]; exact getBlock_mem (d := ⟨Coff, Csize, dd⟩) hC hco
  have bda := (hA.tile.bounds ao hao).2
  have bdb := (hB.tile.bounds bo hbo).2
  have bdc := (hC.tile.bounds co hco).2
  unfold bdim at bda bdb bdc
  rw [eao, h.labL.bext] at bda
  rw [ebo, h.labR.bext] at bdb
  rw [eco, h.labN.bext] at bdc
  obtain ⟨m, hm, hval, hout⟩ := C19_accumulate_partial h.ok (lext sz β) (Or.inr (Or.inr h.ord))
    (fun x hx => lab_pos h hβ hx) (by omega) (by omega) (by omega) fuel (by omega) (by omega) (by omega)
    (fun a => A.data (ao.offset + a)) (fun a => B.data (bo.offset + a)) (fun a => s.data (co.offset + a))
    junk 1 (s.betas (lowerBound Coff (Ci.map β)))
  refine ⟨⟨fun a => m (a - co.offset), fun k => if k = lowerBound Coff (Ci.map β) then 1 else s.betas k⟩,
    ?_, fun k => rfl, ?_⟩
  · unfold doContract mkTask
    dsimp only
    rw [ga, gb, gc]
    dsimp only
    rw [blockExtents_ok va, blockExtents_ok vb, blockExtents_ok vc, h.labL.bext, h.labR.bext, h.labN.bext]
    dsimp only
    rw [hm]
    rfl
  · intro c u hcv hu
    refine elem_congr (d := ⟨Coff, Csize, s.data⟩) (d' := ⟨Coff, Csize, fun a => m (a - co.offset)⟩) rfl rfl ?_ ?_
    · intro o ho
      have hmem := getBlock_some (d := ⟨Coff, Csize, s.data⟩) hC hcv ho
      have hr := rank_lt hu
      dsimp only
      by_cases he : c = Ci.map β
      · subst he
        rw [if_pos rfl]
        have ho' : o = co.offset := by
          have := gc s.data; rw [this] at ho; exact (Option.some.inj ho).symm
        subst ho'
        have hul : u.length = Ci.length := by
          rw [valid_length hu, bext_length hcv, h.labN.length]
        have eu := val_map h.ok.ndc hul
        rw [h.labN.bext] at hu
        rw [← eu, valid_map] at hu
        -- positions for the contracted labels: zero
        let ρ : Int → Nat := fun x => if x ∈ Ci then val Ci u x else 0
        have eρ : Ci.map ρ = u := by
          conv_rhs => rw [← eu]
          apply List.map_congr_left
          intro x hx; simp [ρ, hx]
        have hv := hval ρ (by
          intro x hx
          by_cases hxc : x ∈ Ci
          · simp only [ρ, if_pos hxc]; exact hu x hxc
          · simp only [ρ, if_neg hxc]; exact lab_pos h hβ hx)
        have e1 : ((co.offset + rank (bext Nis (Ci.map β)) u : Nat) : Int) - co.offset
            = (rank (bext Nis (Ci.map β)) u : Nat) := by push_cast; ring
        rw [e1, h.labN.bext]
        rw [eρ] at hv
        rw [hv, one_mul]
        congr 1
        · conv_rhs => rw [← eρ]
          rw [h.contr_mk]
          refine sumOver_congr (fun _ _ => rfl) (fun σ _ _ => ?_) (h.ok.nda.filter _)
          unfold elem
          rw [ga, gb, h.labL.bext, h.labR.bext]
          push_cast
          rfl
        · unfold elem
          rw [gc, h.labN.bext]
          push_cast
          rfl
      · rw [if_neg he]
        have hd := hC.disjoint hmem hco (by intro e; exact he (by rw [← eco, ← e]))
        unfold bdim at hd
        dsimp only at hd
        rw [eco, h.labN.bext] at hd
        rw [hout]
        · unfold elem
          rw [ho]
          dsimp only
          congr 1
          push_cast; ring
        · omega
    · intro hn
      have hnb : c ≠ Ci.map β := by
        rintro rfl
        rw [gc] at hn; exact absurd hn (by simp)
      rw [if_neg hnb]
      unfold elem; rw [hn]

/-- Running tasks in the given order: each block receives the sum of the contributions of its tasks. -/
theorem runTasks_spec (h : PCtx sz Lis Ris Nis La Rb Ci) {A B : QDense K}
    (hA : WF Lis A.offsets A.size) (hB : WF Ris B.offsets B.size) {Coff : List BlOf} {Csize : Nat}
    (hC : WF Nis Coff Csize) {fuel : Nat} (hfa : A.size < fuel) (hfb : B.size < fuel) (hfc : Csize < fuel)
    (hma : (A.size : Int) ≤ offMax) (hmb : (B.size : Int) ≤ offMax) (hmc : (Csize : Int) ≤ offMax)
    (junk : Int → K) (l : List Task) (s : CState K)
    (hl : ∀ t ∈ l, ∃ β : Int → Nat, (∀ x, (x ∈ La ∨ x ∈ Rb) → β x < lnb sz x) ∧
      La.map β ∈ A.offsets.map (·.block) ∧ Rb.map β ∈ B.offsets.map (·.block) ∧
      Ci.map β ∈ Coff.map (·.block) ∧ t = mkTask La Rb Ci β) :
    ∃ s', runFold (doContract fuel Lis Ris Nis La Rb Ci A B Coff Csize junk) s l = some (.ok s') ∧
      ∀ c u, Valid (nb Nis) c → Valid (bext Nis c) u →
        elem ⟨Coff, Csize, s'.data⟩ Nis c u = if c ∈ l.map (·.c) then
            ((l.filter (·.c = c)).map fun t => contr sz Lis Ris La Rb Ci A B t u).sum +
              s.betas (lowerBound Coff c) * elem ⟨Coff, Csize, s.data⟩ Nis c u
          else elem ⟨Coff, Csize, s.data⟩ Nis c u := by
  induction l generalizing s with
  | nil => exact ⟨s, rfl, by simp⟩
  | cons t l ih =>
    obtain ⟨β, h1, h2, h3, h4, rfl⟩ := hl t (by simp)
    obtain ⟨s1, e1, b1, v1⟩ := doContract_spec h hA hB hC hfa hfb hfc hma hmb hmc junk s h1 h2 h3 h4
    obtain ⟨s2, e2, v2⟩ := ih s1 (fun t ht => hl t (by simp [ht]))
    refine ⟨s2, by simp only [runFold, e1]; exact e2, ?_⟩
    intro c u hc hu
    rw [v2 c u hc hu, v1 c u hc hu, b1]
    by_cases hcβ : c = Ci.map β
    · subst hcβ
      have hm : (mkTask La Rb Ci β).c = Ci.map β := rfl
      simp only [if_true, List.map_cons, hm, List.mem_cons, true_or, List.filter_cons, decide_true, List.sum_cons]
      by_cases hin : Ci.map β ∈ l.map (·.c)
      · rw [if_pos hin]; ring
      · rw [if_neg hin]
        have : l.filter (fun t => decide (t.c = Ci.map β)) = [] := by
          rw [List.filter_eq_nil_iff]
          intro t ht
          simp only [decide_eq_true_eq]
          intro e
          exact hin (by rw [← e]; exact List.mem_map_of_mem ht)
        rw [this]
        simp
    · have hm : (mkTask La Rb Ci β).c = Ci.map β := rfl
      have hlb : lowerBound Coff c ≠ lowerBound Coff (Ci.map β) ∨ c ∉ l.map (·.c) := by
        by_cases hin : c ∈ l.map (·.c)
        · left
          obtain ⟨t, ht, rfl⟩ := List.mem_map.1 hin
          obtain ⟨β', g1, g2, g3, g4, rfl⟩ := hl t (by simp [ht])
          obtain ⟨o, ho, eo⟩ := List.mem_map.1 h4
          obtain ⟨o', ho', eo'⟩ := List.mem_map.1 g4
          obtain ⟨i, hi, ei⟩ := List.mem_iff_getElem.1 ho
          obtain ⟨i', hi', ei'⟩ := List.mem_iff_getElem.1 ho'
          have l1 := lowerBound_mem hC.sorted (k := i) (x := o) (by rw [List.getElem?_eq_getElem hi, ei])
          have l2 := lowerBound_mem hC.sorted (k := i') (x := o') (by rw [List.getElem?_eq_getElem hi', ei'])
          intro e
          change lowerBound Coff (Ci.map β') = _ at e
          rw [← eo, ← eo', l1, l2] at e
          subst e
          apply hcβ
          change Ci.map β' = Ci.map β
          rw [← eo, ← eo', ← ei, ← ei']
        · exact Or.inr hin
      rw [if_neg hcβ]
      have hmne : ¬ Ci.map β = c := fun e => hcβ e.symm
      simp only [List.map_cons, hm, List.mem_cons, hcβ, false_or, List.filter_cons, hmne, decide_false]
      by_cases hin : c ∈ l.map (·.c)
      · rw [if_pos hin, if_pos hin, if_neg (hlb.resolve_right (not_not.2 hin))]
        simp
      · rw [if_neg hin, if_neg hin]

end

end Verif.QDense
