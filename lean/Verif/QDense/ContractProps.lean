import Verif.QDense.ContractLemmas

/-!
# C24: block-sparse contraction
-/

namespace Verif.QDense

open Verif Verif.Tensor Verif.Index Verif.Index.IndexSet Finset

section
variable {sz : Int → List Nat} {Lis Ris Nis : IndexSet} {La Rb Ci : List Int}
variable {K : Type*} [CommRing K]

theorem list_sum_filter {ι : Type*} (l : List ι) (p : ι → Bool) (f : ι → K) (h : ∀ x ∈ l, p x = false → f x = 0) :
    (l.map f).sum = ((l.filter p).map f).sum := by
  induction l with
  | nil => rfl
  | cons x l ih =>
    have ih' := ih (fun y hy => h y (by simp [hy]))
    cases hp : p x with
    | true => simp [List.filter_cons, hp, ih']
    | false => simp [List.filter_cons, hp, ih', h x (by simp) hp]

/-- The contributions of all tasks that end in one block add up to the sum over all sectors of the
contracted labels. -/
theorem PCtx.sum_tasks (h : PCtx sz Lis Ris Nis La Rb Ci) {A B : QDense K}
    (hA : WF Lis A.offsets A.size) (hB : WF Ris B.offsets B.size) {ts : List Task}
    (hts : ts.Perm (tasks Lis Ris (Ci.map fun x => if x ∈ La then .inl (La.idxOf x) else .inr (Rb.idxOf x))
      (A.offsets.map (·.block)) (B.offsets.map (·.block))))
    (β υ : Int → Nat) (hβ : ∀ x, (x ∈ La ∨ x ∈ Rb) → β x < lnb sz x) :
    ((ts.filter (·.c = Ci.map β)).map fun t => contr sz Lis Ris La Rb Ci A B t (Ci.map υ)).sum =
      sumOver (lnb sz) (La.filter (· ∈ Rb)) (fun β' => sumOver (lext sz β') (La.filter (· ∈ Rb))
        (fun σ => elem A Lis (La.map β') (La.map σ) * elem B Ris (Rb.map β') (Rb.map σ)) υ) β := by
  have hnd := h.ok.nda.filter (· ∈ Rb)
  rw [sumOver_assigns]
  have hval : ∀ β' ∈ assigns (lnb sz) (La.filter (· ∈ Rb)) β,
      (∀ x, (x ∈ La ∨ x ∈ Rb) → β' x < lnb sz x) ∧ Ci.map β' = Ci.map β := by
    intro β' hm
    obtain ⟨h1, h2⟩ := (mem_assigns hnd).1 hm
    constructor
    · intro x hx
      by_cases hc : x ∈ La.filter (· ∈ Rb)
      · exact h1 x hc
      · rw [h2 x hc]; exact hβ x hx
    · apply List.map_congr_left
      intro x hx
      apply h2
      intro hc
      simp only [List.mem_filter, decide_eq_true_eq] at hc
      exact (h.ok.a x hc.1).1 hc.2 hx
  rw [list_sum_filter _ (fun β' => decide (La.map β' ∈ A.offsets.map (·.block)) &&
    decide (Rb.map β' ∈ B.offsets.map (·.block)))]
  swap
  · intro β' hm hp
    obtain ⟨hv, _⟩ := hval β' hm
    have : ∀ σ : Int → Nat, elem A Lis (La.map β') (La.map σ) * elem B Ris (Rb.map β') (Rb.map σ) = 0 := by
      intro σ
      rw [Bool.and_eq_false_iff] at hp
      rcases hp with hp | hp
      · rw [elem_zero_of_notMem hA (by rw [h.labL.nb, valid_map]; exact fun x hx => hv x (Or.inl hx))
          (by simpa using hp), zero_mul]
      · rw [elem_zero_of_notMem hB (by rw [h.labR.nb, valid_map]; exact fun x hx => hv x (Or.inr hx))
          (by simpa using hp), mul_zero]
    rw [sumOver_assigns]
    simp only [this]
    simp
  have hperm : (ts.filter (fun t => decide (t.c = Ci.map β))).Perm
      (((assigns (lnb sz) (La.filter (· ∈ Rb)) β).filter (fun β' =>
        decide (La.map β' ∈ A.offsets.map (·.block)) && decide (Rb.map β' ∈ B.offsets.map (·.block)))).map
        (mkTask La Rb Ci)) := by
    have hbA : ∀ a ∈ A.offsets.map (·.block), Valid (nb Lis) a := by
      intro a ha; obtain ⟨o, ho, rfl⟩ := List.mem_map.1 ha; exact hA.valid o ho
    have hbB : ∀ a ∈ B.offsets.map (·.block), Valid (nb Ris) a := by
      intro a ha; obtain ⟨o, ho, rfl⟩ := List.mem_map.1 ha; exact hB.valid o ho
    refine (List.perm_ext_iff_of_nodup ?_ ?_).2 ?_
    · exact ((hts.nodup_iff).2 (tasks_nodup (sortedOff_nodup hA.sorted) (sortedOff_nodup hB.sorted))).filter _
    · refine ((assigns_nodup _ hnd _).filter _).map_on ?_
      intro b1 h1 b2 h2 e
      obtain ⟨m1, _⟩ := List.mem_filter.1 h1
      obtain ⟨m2, _⟩ := List.mem_filter.1 h2
      funext x
      by_cases hx : x ∈ La.filter (· ∈ Rb)
      · have hx' := (List.mem_filter.1 hx).1
        have ea : La.map b1 = La.map b2 := (Task.mk.inj e).1
        rw [← val_get (β := b1) hx', ← val_get (β := b2) hx', ea]
      · rw [((mem_assigns hnd).1 m1).2 x hx, ((mem_assigns hnd).1 m2).2 x hx]
    · intro t
      rw [List.mem_filter, hts.mem_iff, h.mem_tasks hbA hbB, List.mem_map]
      simp only [decide_eq_true_eq, List.mem_filter, Bool.and_eq_true]
      constructor
      · rintro ⟨⟨β', hv, ha, hb, rfl⟩, hc⟩
        let β'' : Int → Nat := fun x => if x ∈ La.filter (· ∈ Rb) then β' x else β x
        have hag : ∀ x, x ∈ La ∨ x ∈ Rb → β'' x = β' x := by
          intro x hx
          by_cases hm : x ∈ La.filter (· ∈ Rb)
          · simp only [β'', if_pos hm]
          · simp only [β'', if_neg hm]
            have hxc : x ∈ Ci := by
              simp only [List.mem_filter, decide_eq_true_eq, not_and] at hm
              by_contra hn
              rcases hx with hx | hx
              · exact hm hx ((h.ok.a x hx).2 hn)
              · exact hm ((h.ok.b x hx).2 hn) hx
            have hc' : Ci.map β' = Ci.map β := hc
            rw [← val_get (β := β) hxc, ← hc', val_get hxc]
        have e1 : La.map β'' = La.map β' := List.map_congr_left fun x hx => hag x (Or.inl hx)
        have e2 : Rb.map β'' = Rb.map β' := List.map_congr_left fun x hx => hag x (Or.inr hx)
        have e3 : Ci.map β'' = Ci.map β' := List.map_congr_left fun x hx => hag x (h.cmem hx)
        refine ⟨β'', ⟨?_, by rw [e1]; exact ha, by rw [e2]; exact hb⟩, by unfold mkTask; rw [e1, e2, e3]⟩
        rw [mem_assigns hnd]
        constructor
        · intro x hx
          rw [hag x (Or.inl (List.mem_filter.1 hx).1)]
          exact hv x (Or.inl (List.mem_filter.1 hx).1)
        · intro x hx
          simp only [β'', if_neg hx]
      · rintro ⟨β', ⟨hm, ha, hb⟩, rfl⟩
        obtain ⟨hv, hc⟩ := hval β' hm
        exact ⟨⟨β', hv, ha, hb, rfl⟩, hc⟩
  rw [(hperm.map _).sum_eq, List.map_map]
  congr 1
  apply List.map_congr_left
  intro β' _
  simp only [Function.comp]
  rw [h.contr_mk]

end

section
variable {K : Type*} [CommRing K] [DecidableEq K]

/-- Labels of a product of index sets whose common indices have the same sectors. -/
theorem exists_pctx {Lis Ris : IndexSet} (hL : (keys Lis).Nodup) (hR : (keys Ris).Nodup)
    (hq : hasQNs Lis = hasQNs Ris)
    (hsame : ∀ I ∈ Lis, ∀ J ∈ Ris, I.key = J.key → szs I = szs J)
    (hpL : PosSectors Lis) (hpR : PosSectors Ris) :
    ∃ (lab : Key → Int) (sz : Int → List Nat), (computeLabels Lis Ris).1 = (keys Lis).map lab ∧
      (computeLabels Lis Ris).2.1 = (keys Ris).map lab ∧
      (∀ k k', (k ∈ keys Lis ∨ k ∈ keys Ris) → (k' ∈ keys Lis ∨ k' ∈ keys Ris) → lab k = lab k' → k = k') ∧
      prodInds Lis Ris = (Lis.filter (fun i => i.key ∉ keys Ris) ++ Ris.filter (fun i => i.key ∉ keys Lis)).map
        (fun i => (i, lab i.key)) ∧
      (∀ I, I ∈ Lis ∨ I ∈ Ris → sz (lab I.key) = szs I) ∧
      PCtx sz Lis Ris (Lis.filter (fun i => i.key ∉ keys Ris) ++ Ris.filter (fun i => i.key ∉ keys Lis))
        ((keys Lis).map lab) ((keys Ris).map lab)
        ((Lis.filter (fun i => i.key ∉ keys Ris) ++ Ris.filter (fun i => i.key ∉ keys Lis)).map
          fun i => lab i.key) := by
  obtain ⟨lab, hA, hB, hinj, hs⟩ := exists_lab Lis Ris hL hR
  obtain ⟨hok, hord, _⟩ := labelsOK_prod hL hR hinj
  have hprod := prodInds_lab hq hA hB hs
  set Nis := Lis.filter (fun i => i.key ∉ keys Ris) ++ Ris.filter (fun i => i.key ∉ keys Lis) with hN
  have hNmem : ∀ I ∈ Nis, I ∈ Lis ∨ I ∈ Ris := by
    intro I hI
    rcases List.mem_append.1 hI with h | h
    · exact Or.inl (List.mem_filter.1 h).1
    · exact Or.inr (List.mem_filter.1 h).1
  have hkey : ∀ I, I ∈ Lis ∨ I ∈ Ris → I.key ∈ keys Lis ∨ I.key ∈ keys Ris := by
    rintro I (h | h)
    · exact Or.inl (List.mem_map_of_mem h)
    · exact Or.inr (List.mem_map_of_mem h)
  have huniq : ∀ I J, I ∈ Lis ∨ I ∈ Ris → J ∈ Lis ∨ J ∈ Ris → I.key = J.key → szs I = szs J := by
    rintro I J (hI | hI) (hJ | hJ) e
    · rw [List.inj_on_of_nodup_map hL hI hJ e]
    · exact hsame I hI J hJ e
    · exact (hsame J hJ I hI e.symm).symm
    · rw [List.inj_on_of_nodup_map hR hI hJ e]
  let sz : Int → List Nat := fun x =>
    match (Lis ++ Ris).find? (fun I => decide (lab I.key = x)) with
    | some I => szs I
    | none => []
  have hsz : ∀ I, I ∈ Lis ∨ I ∈ Ris → sz (lab I.key) = szs I := by
    intro I hI
    have hI' : I ∈ Lis ++ Ris := List.mem_append.2 hI
    simp only [sz]
    cases hf : (Lis ++ Ris).find? (fun J => decide (lab J.key = lab I.key)) with
    | none =>
      have := List.find?_eq_none.1 hf I hI'
      simp at this
    | some J =>
      have hJ := List.mem_append.1 (List.mem_of_find?_eq_some hf)
      have he : lab J.key = lab I.key := by simpa using List.find?_some hf
      exact huniq J I hJ hI (hinj _ _ (hkey J hJ) (hkey I hI) he)
  have hfind : ∀ (X : IndexSet) (hX : ∀ I ∈ X, I ∈ Lis ∨ I ∈ Ris) (I : Index) (hI : I ∈ Lis ∨ I ∈ Ris)
      (p : Index → Bool) (hp : ∀ J, p J = true ↔ J.key = I.key),
      X.findIdx? p = if lab I.key ∈ (keys X).map lab then some (((keys X).map lab).idxOf (lab I.key)) else none := by
    intro X hX I hI p hp
    induction X with
    | nil => simp [keys]
    | cons J X ih =>
      have ih' := ih (fun K hK => hX K (by simp [hK]))
      rw [List.findIdx?_cons]
      have hk : keys (J :: X) = J.key :: keys X := rfl
      rw [hk, List.map_cons, List.idxOf_cons]
      by_cases hJ : J.key = I.key
      · rw [(hp J).2 hJ]
        simp [hJ]
      · have hpJ : p J = false := by
          rw [Bool.eq_false_iff]; exact fun h => hJ ((hp J).1 h)
        have hne : lab J.key ≠ lab I.key := fun e =>
          hJ (hinj _ _ (hkey J (hX J (by simp))) (hkey I hI) e)
        rw [hpJ, ih']
        have hb : (lab J.key == lab I.key) = false := by simp [hne]
        by_cases hm : lab I.key ∈ (keys X).map lab
        · simp [hm, hb]
        · simp only [hm, if_false, List.mem_cons, hne.symm, false_or, hb, cond_false]
          simp
  refine ⟨lab, sz, hA, hB, hinj, hprod, hsz, ⟨hok, hord, ?_, ?_, ?_, ?_, ?_, ?_⟩⟩
  · unfold Lab keys
    rw [List.map_map, List.map_map]
    exact List.map_congr_left fun I hI => (hsz I (Or.inl hI)).symm
  · unfold Lab keys
    rw [List.map_map, List.map_map]
    exact List.map_congr_left fun I hI => (hsz I (Or.inr hI)).symm
  · unfold Lab
    rw [List.map_map]
    exact List.map_congr_left fun I hI => (hsz I (hNmem I hI)).symm
  · have main : ∀ (X : IndexSet), (∀ I ∈ X, I ∈ Lis ∨ I ∈ Ris) → cSource Lis Ris X =
        .ok ((X.map fun i => lab i.key).map fun x => if x ∈ (keys Lis).map lab then
          .inl (((keys Lis).map lab).idxOf x) else .inr (((keys Ris).map lab).idxOf x)) := by
      intro X hX
      induction X with
      | nil => rfl
      | cons I X ih =>
        have hI := hX I (by simp)
        have ih' := ih (fun K hK => hX K (by simp [hK]))
        rw [cSource, indexPosition, indexPosition,
          hfind Lis (fun _ h => Or.inl h) I hI (·.eq I) (fun J => by rw [Index.eq_iff]),
          hfind Ris (fun _ h => Or.inr h) I hI (·.eq I) (fun J => by rw [Index.eq_iff]), ih']
        by_cases h1 : lab I.key ∈ (keys Lis).map lab
        · rw [if_pos h1]
          simp only [Res.bind_ok, List.map_cons, if_pos h1]
        · have h2 : lab I.key ∈ (keys Ris).map lab := by
            rcases hI with hI | hI
            · exact absurd (List.mem_map_of_mem (List.mem_map_of_mem hI)) h1
            · exact List.mem_map_of_mem (List.mem_map_of_mem hI)
          rw [if_neg h1, if_pos h2]
          simp only [Res.bind_ok, List.map_cons, if_neg h1]
    exact main Nis hNmem
  · unfold aToB keys
    rw [List.map_map, List.map_map]
    apply List.map_congr_left
    intro I hI
    rw [hfind Ris (fun _ h => Or.inr h) I (Or.inl hI) (fun J => I.eq J)
      (fun J => by rw [Index.eq_iff]; exact eq_comm)]
    simp only [Function.comp, keys, List.map_map]
  · rintro x (hx | hx) s hsx
    · obtain ⟨k, hk, rfl⟩ := List.mem_map.1 hx
      obtain ⟨I, hI, rfl⟩ := List.mem_map.1 hk
      rw [hsz I (Or.inl hI)] at hsx
      exact hpL I hI s hsx
    · obtain ⟨k, hk, rfl⟩ := List.mem_map.1 hx
      obtain ⟨I, hI, rfl⟩ := List.mem_map.1 hk
      rw [hsz I (Or.inr hI)] at hsx
      exact hpR I hI s hsx

omit [DecidableEq K] in
/-- A sum over indices is a sum over their labels. -/
theorem sumOver_relabel {X : Type*} [DecidableEq X] {lab : X → Int} {S : X → Prop}
    (hinj : ∀ k k', S k → S k' → lab k = lab k' → k = k') {ext : X → Nat} {ext' : Int → Nat}
    (he : ∀ k, S k → ext' (lab k) = ext k) {cs : List X} (hcs : ∀ k ∈ cs, S k)
    {F : (Int → Nat) → K} {G : (X → Nat) → K}
    (hFG : ∀ (σ' : Int → Nat) (σ : X → Nat), (∀ k, S k → σ' (lab k) = σ k) → (∀ k, S k → σ k < ext k) →
      F σ' = G σ)
    {ρ' : Int → Nat} {ρ : X → Nat} (hρ : ∀ k, S k → ρ' (lab k) = ρ k) (hlt : ∀ k, S k → ρ k < ext k) :
    sumOver ext' (cs.map lab) F ρ' = sumOver ext cs G ρ := by
  induction cs generalizing ρ ρ' with
  | nil => exact hFG ρ' ρ hρ hlt
  | cons x cs ih =>
    simp only [List.map_cons, sumOver]
    have hx := hcs x (by simp)
    rw [he x hx]
    refine sum_congr rfl fun v hv => ?_
    refine ih (fun k hk => hcs k (by simp [hk])) ?_ ?_
    · intro k hk
      by_cases hkx : k = x
      · subst hkx; rw [Function.update_self, Function.update_self]
      · rw [Function.update_of_ne hkx, Function.update_of_ne, hρ k hk]
        exact fun e => hkx (hinj k x hk hx e)
    · intro k hk
      by_cases hkx : k = x
      · subst hkx; rw [Function.update_self]; exact mem_range.1 hv
      · rw [Function.update_of_ne hkx]; exact hlt k hk

omit [DecidableEq K] in
theorem exists_lift {X : Type*} {lab : X → Int} {S : X → Prop}
    (hinj : ∀ k k', S k → S k' → lab k = lab k' → k = k') (ρ : X → Nat) :
    ∃ ρ' : Int → Nat, ∀ k, S k → ρ' (lab k) = ρ k := by
  classical
  refine ⟨fun x => if h : ∃ k, S k ∧ lab k = x then ρ h.choose else 0, fun k hk => ?_⟩
  have h : ∃ k', S k' ∧ lab k' = lab k := ⟨k, hk, rfl⟩
  simp only [dif_pos h]
  rw [hinj _ k h.choose_spec.1 hk h.choose_spec.2]

/-- **C24.** Contraction of block-sparse tensors, with the block contractions run in any order
(`order` may permute the task list), is contraction of the tensors: every element of the result is
the sum, over all values of the indices the operands share, of the products of the elements of the
operands. No element of the uninitialised memory `mem`, nor of the scratch memory `junk`, shows up.
`fA`, `fB` are the elements of the operands as `getElt` reads them; `ρ` assigns a value to every index
(indices are told apart by `Index.key`). -/
theorem C24_contract {Lis Ris : IndexSet} (hL : (keys Lis).Nodup) (hR : (keys Ris).Nodup)
    (hq : hasQNs Lis = hasQNs Ris)
    (hsame : ∀ I ∈ Lis, ∀ J ∈ Ris, I.key = J.key → I.qns.map (·.2) = J.qns.map (·.2))
    (hpos : ∀ I, (I ∈ Lis ∨ I ∈ Ris) → ∀ s ∈ I.qns, 0 < s.2)
    (order : List Task → List Task) (horder : ∀ ts, (order ts).Perm ts)
    {A B : QDense K} (hA : WF Lis A.offsets A.size) (hB : WF Ris B.offsets B.size) (fuel : Nat)
    (hsA : A.size < fuel ∧ (A.size : Int) ≤ offMax) (hsB : B.size < fuel ∧ (B.size : Int) ≤ offMax)
    (hsC : ∀ r, getContractedOffsets Lis (A.offsets.map (·.block)) Ris (B.offsets.map (·.block))
      ((prodInds Lis Ris).map (·.1)) = .ok r → r.2.1 < fuel ∧ (r.2.1 : Int) ≤ offMax)
    (mem junk : Int → K) (fA fB : List Nat → K)
    (hfA : ∀ ind, Valid (Lis.map fun I => (I.qns.map (·.2)).sum) ind → getElt A Lis ind = .ok (fA ind))
    (hfB : ∀ ind, Valid (Ris.map fun I => (I.qns.map (·.2)).sum) ind → getElt B Ris ind = .ok (fB ind)) :
    ∃ C N, contractQ order fuel Lis Ris A B mem junk = some (.ok (C, N)) ∧
      N.map (·.1) = Lis.filter (fun i => i.key ∉ keys Ris) ++ Ris.filter (fun i => i.key ∉ keys Lis) ∧
      WF (N.map (·.1)) C.offsets C.size ∧
      ∀ (ext : Key → Nat), (∀ I, (I ∈ Lis ∨ I ∈ Ris) → ext I.key = (I.qns.map (·.2)).sum) →
      ∀ (ρ : Key → Nat), (∀ I, (I ∈ Lis ∨ I ∈ Ris) → ρ I.key < ext I.key) →
        getElt C (N.map (·.1)) (N.map fun p => ρ p.1.key) =
          .ok (sumOver ext ((keys Lis).filter (· ∈ keys Ris))
            (fun σ => fA (Lis.map fun I => σ I.key) * fB (Ris.map fun I => σ I.key)) ρ) := by
  have hpS : ∀ X : IndexSet, (∀ I ∈ X, I ∈ Lis ∨ I ∈ Ris) → PosSectors X := by
    intro X hX I hI s hs
    obtain ⟨q, hq, rfl⟩ := List.mem_map.1 hs
    exact hpos I (hX I hI) q hq
  obtain ⟨lab, sz, eA, eB, hinj, hprod, hsz, hp⟩ := exists_pctx hL hR hq hsame
    (hpS Lis fun _ h => Or.inl h) (hpS Ris fun _ h => Or.inr h)
  have hcs := (labelsOK_prod hL hR hinj).2.2
  set Nis := Lis.filter (fun i => i.key ∉ keys Ris) ++ Ris.filter (fun i => i.key ∉ keys Lis) with hN
  set La := (keys Lis).map lab with hLa
  set Rb := (keys Ris).map lab with hRb
  set Ci := Nis.map (fun i => lab i.key) with hCi
  have hN1 : (prodInds Lis Ris).map (·.1) = Nis := by rw [hprod, List.map_map]; simp [Function.comp_def]
  have hN2 : (prodInds Lis Ris).map (·.2) = Ci := by rw [hprod, List.map_map]; rfl
  set src := Ci.map (fun x => if x ∈ La then (.inl (La.idxOf x) : Nat ⊕ Nat) else .inr (Rb.idxOf x)) with hsrc
  set ts := tasks Lis Ris src (A.offsets.map (·.block)) (B.offsets.map (·.block)) with hts
  have hbA : ∀ a ∈ A.offsets.map (·.block), Valid (nb Lis) a := by
    intro a ha; obtain ⟨o, ho, rfl⟩ := List.mem_map.1 ha; exact hA.valid o ho
  have hbB : ∀ a ∈ B.offsets.map (·.block), Valid (nb Ris) a := by
    intro a ha; obtain ⟨o, ho, rfl⟩ := List.mem_map.1 ha; exact hB.valid o ho
  have hmem := fun t => hp.mem_tasks hbA hbB (t := t)
  have hvc : ∀ c ∈ uniqBlocks (sortBlocks (ts.map (·.c))), Valid (nb Nis) c := by
    intro c hc
    rw [uniqBlocks_mem, (sortBlocks_perm _).mem_iff] at hc
    obtain ⟨t, ht, rfl⟩ := List.mem_map.1 hc
    obtain ⟨β, hv, _, _, rfl⟩ := (hmem t).1 ht
    change Valid _ (Ci.map β)
    rw [hp.labN.nb, valid_map]
    exact fun x hx => hv x (hp.cmem hx)
  obtain ⟨Coff, Csize, hu1, hu2, hC⟩ := uoLoop_wf (uniqBlocks_sorted _ (sortBlocks_le (ts.map (·.c)))) hvc
  have hgo : getContractedOffsets Lis (A.offsets.map (·.block)) Ris (B.offsets.map (·.block)) Nis =
      .ok (Coff, Csize, ts) := by
    unfold getContractedOffsets
    rw [hp.src]
    simp only [Res.bind_ok, ← hsrc, ← hts, hu1]
  have hCs := hsC _ (by rw [hN1]; exact hgo)
  dsimp only at hCs
  have hCm : ∀ c, c ∈ Coff.map (·.block) ↔ c ∈ ts.map (·.c) := by
    intro c; rw [hu2, uniqBlocks_mem, (sortBlocks_perm _).mem_iff]
  obtain ⟨s', hrun, hval⟩ := runTasks_spec hp hA hB hC hsA.1 hsB.1 hCs.1 hsA.2 hsB.2 hCs.2 junk (order ts)
    ⟨mem, fun _ => 0⟩ (by
      intro t ht
      have ht' := (horder ts).mem_iff.1 ht
      obtain ⟨β, h1, h2, h3, rfl⟩ := (hmem t).1 ht'
      exact ⟨β, h1, h2, h3, (hCm _).2 (List.mem_map.2 ⟨_, ht', rfl⟩), rfl⟩)
  have hpi : contractIS Lis Ris (computeLabels Lis Ris).1 (computeLabels Lis Ris).2.1 = prodInds Lis Ris := rfl
  refine ⟨⟨Coff, Csize, s'.data⟩, prodInds Lis Ris, ?_, hN1, by rw [hN1]; exact hC, ?_⟩
  · unfold contractQ
    dsimp only
    rw [hpi, hN1, hN2, hgo, eA, eB]
    dsimp only
    rw [hrun]
    rfl
  intro ext hext ρ hρ
  rw [hN1]
  -- move to labels
  have hS : ∀ k, (k ∈ keys Lis ∨ k ∈ keys Ris) → ∃ I, (I ∈ Lis ∨ I ∈ Ris) ∧ I.key = k := by
    rintro k (hk | hk)
    · obtain ⟨I, hI, rfl⟩ := List.mem_map.1 hk; exact ⟨I, Or.inl hI, rfl⟩
    · obtain ⟨I, hI, rfl⟩ := List.mem_map.1 hk; exact ⟨I, Or.inr hI, rfl⟩
  have hIk : ∀ I, (I ∈ Lis ∨ I ∈ Ris) → I.key ∈ keys Lis ∨ I.key ∈ keys Ris := by
    rintro I (h | h)
    · exact Or.inl (List.mem_map_of_mem h)
    · exact Or.inr (List.mem_map_of_mem h)
  have hmemlab : ∀ x, (x ∈ La ∨ x ∈ Rb) ↔ ∃ k, (k ∈ keys Lis ∨ k ∈ keys Ris) ∧ lab k = x := by
    intro x
    simp only [hLa, hRb, List.mem_map]
    constructor
    · rintro (⟨k, h, rfl⟩ | ⟨k, h, rfl⟩)
      · exact ⟨k, Or.inl h, rfl⟩
      · exact ⟨k, Or.inr h, rfl⟩
    · rintro ⟨k, h | h, rfl⟩
      · exact Or.inl ⟨k, h, rfl⟩
      · exact Or.inr ⟨k, h, rfl⟩
  have hdim : ∀ k, (k ∈ keys Lis ∨ k ∈ keys Ris) → ldim sz (lab k) = ext k := by
    intro k hk
    obtain ⟨I, hI, rfl⟩ := hS k hk
    rw [hext I hI, ldim, hsz I hI]; rfl
  obtain ⟨ρ', hρ'⟩ := exists_lift hinj ρ
  have hρk : ∀ k, (k ∈ keys Lis ∨ k ∈ keys Ris) → ρ k < ext k := by
    intro k hk; obtain ⟨I, hI, rfl⟩ := hS k hk; exact hρ I hI
  have hρ'lt : ∀ x, (x ∈ La ∨ x ∈ Rb) → ρ' x < ldim sz x := by
    intro x hx
    obtain ⟨k, hk, rfl⟩ := (hmemlab x).1 hx
    rw [hρ' k hk, hdim k hk]; exact hρk k hk
  have hrel : sumOver ext ((keys Lis).filter (· ∈ keys Ris))
      (fun σ => fA (Lis.map fun I => σ I.key) * fB (Ris.map fun I => σ I.key)) ρ =
      sumOver (ldim sz) (La.filter (· ∈ Rb)) (fun σ => fA (La.map σ) * fB (Rb.map σ)) ρ' := by
    rw [hcs]
    symm
    refine sumOver_relabel (S := fun k => k ∈ keys Lis ∨ k ∈ keys Ris) hinj hdim
      (fun k hk => Or.inl (List.mem_filter.1 hk).1) ?_ hρ' hρk
    intro σ' σ h1 _
    simp only [hLa, hRb, keys, List.map_map]
    have e1 : Lis.map (σ' ∘ lab ∘ Index.key) = Lis.map (fun I => σ I.key) :=
      List.map_congr_left fun I hI => h1 _ (hIk I (Or.inl hI))
    have e2 : Ris.map (σ' ∘ lab ∘ Index.key) = Ris.map (fun I => σ I.key) :=
      List.map_congr_left fun I hI => h1 _ (hIk I (Or.inr hI))
    rw [← e1, ← e2]
  rw [hrel]
  have hNmem : ∀ I ∈ Nis, I ∈ Lis ∨ I ∈ Ris := by
    intro I hI
    rcases List.mem_append.1 hI with h | h
    · exact Or.inl (List.mem_filter.1 h).1
    · exact Or.inr (List.mem_filter.1 h).1
  have hind : (prodInds Lis Ris).map (fun p => ρ p.1.key) = Ci.map ρ' := by
    rw [hprod, hCi, List.map_map, List.map_map]
    exact List.map_congr_left fun I hI => (hρ' _ (hIk I (hNmem I hI))).symm
  rw [hind]
  -- sectors and positions
  obtain ⟨β, υ, hβ, hυ, hgl⟩ := exists_lgl sz (fun x => x ∈ La ∨ x ∈ Rb) ρ' hρ'lt
  have hsum : sumOver (ldim sz) (La.filter (· ∈ Rb)) (fun σ => fA (La.map σ) * fB (Rb.map σ)) ρ' =
      sumOver (ldim sz) (La.filter (· ∈ Rb)) (fun σ => fA (La.map σ) * fB (Rb.map σ)) (lgl sz β υ) := by
    refine sumOver_congr2 (fun _ _ => rfl) ?_ (hp.ok.nda.filter _)
    intro σ σ' h1 h2 h3
    have ag : ∀ x, x ∈ La ∨ x ∈ Rb → σ x = σ' x := by
      intro x hx
      by_cases hc : x ∈ La.filter (· ∈ Rb)
      · exact (h1 x hc).1
      · rw [h2 x hc, h3 x hc, hgl x hx]
    have e1 : La.map σ = La.map σ' := List.map_congr_left fun x hx => ag x (Or.inl hx)
    have e2 : Rb.map σ = Rb.map σ' := List.map_congr_left fun x hx => ag x (Or.inr hx)
    rw [e1, e2]
  rw [hsum, sumOver_sectors sz (hp.ok.nda.filter _)]
  have hci : Ci.map ρ' = Ci.map (lgl sz β υ) :=
    List.map_congr_left fun x hx => (hgl x (hp.cmem hx)).symm
  have hvC : Valid (nb Nis) (Ci.map β) := by
    rw [hp.labN.nb, valid_map]; exact fun x hx => hβ x (hp.cmem hx)
  have hvU : Valid (bext Nis (Ci.map β)) (Ci.map υ) := by
    rw [hp.labN.bext, valid_map]; exact fun x hx => hυ x (hp.cmem hx)
  rw [hci, ← hp.labN.glue, getElt_glue (d := ⟨Coff, Csize, s'.data⟩) hC hvC hvU, hval _ _ hvC hvU]
  congr 1
  have hsumt := hp.sum_tasks hA hB (horder ts) β υ hβ
  have hfin : sumOver (lnb sz) (La.filter (· ∈ Rb)) (fun β' => sumOver (lext sz β') (La.filter (· ∈ Rb))
        (fun σ => elem A Lis (La.map β') (La.map σ) * elem B Ris (Rb.map β') (Rb.map σ)) υ) β =
      sumOver (lnb sz) (La.filter (· ∈ Rb)) (fun β' => sumOver (lext sz β') (La.filter (· ∈ Rb))
        (fun υ' => fA (La.map (lgl sz β' υ')) * fB (Rb.map (lgl sz β' υ'))) υ) β := by
    refine sumOver_congr (fun _ _ => rfl) (fun β' h1 h2 => ?_) (hp.ok.nda.filter _)
    refine sumOver_congr (fun _ _ => rfl) (fun υ' g1 g2 => ?_) (hp.ok.nda.filter _)
    have hb : ∀ x, x ∈ La ∨ x ∈ Rb → β' x < lnb sz x ∧ υ' x < lext sz β' x := by
      intro x hx
      by_cases hc : x ∈ La.filter (· ∈ Rb)
      · exact ⟨h1 x hc, g1 x hc⟩
      · rw [h2 x hc, g2 x hc, lext, h2 x hc]
        exact ⟨hβ x hx, hυ x hx⟩
    have rdL : elem A Lis (La.map β') (La.map υ') = fA (La.map (lgl sz β' υ')) := by
      have v1 : Valid (nb Lis) (La.map β') := by
        rw [hp.labL.nb, valid_map]; exact fun x hx => (hb x (Or.inl hx)).1
      have v2 : Valid (bext Lis (La.map β')) (La.map υ') := by
        rw [hp.labL.bext, valid_map]; exact fun x hx => (hb x (Or.inl hx)).2
      have := getElt_glue hA v1 v2
      rw [hfA _ (glue_valid v1 v2), hp.labL.glue] at this
      exact (Res.ok.inj this).symm
    have rdR : elem B Ris (Rb.map β') (Rb.map υ') = fB (Rb.map (lgl sz β' υ')) := by
      have v1 : Valid (nb Ris) (Rb.map β') := by
        rw [hp.labR.nb, valid_map]; exact fun x hx => (hb x (Or.inr hx)).1
      have v2 : Valid (bext Ris (Rb.map β')) (Rb.map υ') := by
        rw [hp.labR.bext, valid_map]; exact fun x hx => (hb x (Or.inr hx)).2
      have := getElt_glue hB v1 v2
      rw [hfB _ (glue_valid v1 v2), hp.labR.glue] at this
      exact (Res.ok.inj this).symm
    rw [rdL, rdR]
  rw [← hfin, ← hsumt]
  by_cases hin : Ci.map β ∈ (order ts).map (·.c)
  · rw [if_pos hin, zero_mul, add_zero]
  · rw [if_neg hin]
    have hf : (order ts).filter (fun t => decide (t.c = Ci.map β)) = [] := by
      rw [List.filter_eq_nil_iff]
      intro t ht
      simp only [decide_eq_true_eq]
      intro e
      exact hin (by rw [← e]; exact List.mem_map_of_mem ht)
    rw [hf]
    simp only [List.map_nil, List.sum_nil]
    refine elem_zero_of_notMem (d := ⟨Coff, Csize, mem⟩) hC hvC ?_ _
    intro hm
    have := (hCm _).1 hm
    exact hin (((horder ts).map _).mem_iff.2 this)

theorem sum_filter_split (X : IndexSet) (p : Index → Prop) [DecidablePred p] (w : Index → Int) :
    (X.map w).sum = ((X.filter (fun i => p i)).map w).sum + ((X.filter (fun i => ¬ p i)).map w).sum := by
  induction X with
  | nil => simp
  | cons I X ih =>
    by_cases h : p I
    · simp [List.filter_cons, h, ih]; ring
    · simp [List.filter_cons, h, ih]; ring

theorem sum_opposite {L R : IndexSet} (hL : (keys L).Nodup) (hR : (keys R).Nodup) (w : Index → Int)
    (hw : ∀ I ∈ L, ∀ J ∈ R, I.key = J.key → w I = - w J) :
    ((L.filter (fun i => ¬ i.key ∉ keys R)).map w).sum + ((R.filter (fun i => ¬ i.key ∉ keys L)).map w).sum = 0 := by
  let h : Key → Int := fun k => match L.find? (fun I => decide (I.key = k)) with
    | some I => w I
    | none => 0
  have hh : ∀ I ∈ L, h I.key = w I := by
    intro I hI
    simp only [h]
    cases hf : L.find? (fun J => decide (J.key = I.key)) with
    | none => have := List.find?_eq_none.1 hf I hI; simp at this
    | some J =>
      have hJ := List.mem_of_find?_eq_some hf
      have he : J.key = I.key := by simpa using List.find?_some hf
      rw [List.inj_on_of_nodup_map hL hJ hI he]
  have e1 : (L.filter (fun i => ¬ i.key ∉ keys R)).map w =
      ((L.filter (fun i => ¬ i.key ∉ keys R)).map Index.key).map h := by
    rw [List.map_map]
    exact List.map_congr_left fun I hI => (hh I (List.mem_filter.1 hI).1).symm
  have e2 : (R.filter (fun i => ¬ i.key ∉ keys L)).map w =
      ((R.filter (fun i => ¬ i.key ∉ keys L)).map Index.key).map (fun k => - h k) := by
    rw [List.map_map]
    refine List.map_congr_left fun J hJ => ?_
    obtain ⟨hJ1, hJ2⟩ := List.mem_filter.1 hJ
    have hJk : J.key ∈ keys L := by simpa using hJ2
    obtain ⟨I, hI, e⟩ := List.mem_map.1 hJk
    have hwi : w I = - w J := hw I hI J hJ1 e
    simp only [Function.comp]
    rw [← e, hh I hI, hwi, neg_neg]
  have hperm : ((L.filter (fun i => ¬ i.key ∉ keys R)).map Index.key).Perm
      ((R.filter (fun i => ¬ i.key ∉ keys L)).map Index.key) := by
    refine (List.perm_ext_iff_of_nodup ?_ ?_).2 ?_
    · exact hL.sublist (List.filter_sublist.map _)
    · exact hR.sublist (List.filter_sublist.map _)
    · intro k
      simp only [List.mem_map, List.mem_filter, not_not, decide_eq_true_eq]
      constructor
      · rintro ⟨I, ⟨hI, hk⟩, rfl⟩
        obtain ⟨J, hJ, e⟩ := List.mem_map.1 hk
        exact ⟨J, ⟨hJ, by rw [e]; exact List.mem_map_of_mem hI⟩, e⟩
      · rintro ⟨I, ⟨hI, hk⟩, rfl⟩
        obtain ⟨J, hJ, e⟩ := List.mem_map.1 hk
        exact ⟨J, ⟨hJ, by rw [e]; exact List.mem_map_of_mem hI⟩, e⟩
  rw [e1, e2, (hperm.map h).sum_eq]
  have hneg : ∀ l : List Key, (l.map fun k => - h k).sum = - (l.map h).sum := by
    intro l
    induction l with
    | nil => simp
    | cons k l ih => simp only [List.map_cons, List.sum_cons, ih]; ring
  rw [hneg]
  ring

theorem fluxVal_map (is : IndexSet) (g : Index → Nat) (n : Verif.QN.Name) :
    fluxVal is (is.map g) n =
      (is.map fun I => ((I.qns.getD (g I) (Verif.QN.QN.default, 0)).1).val n * I.dir).sum := by
  unfold fluxVal
  rw [List.zipWith_map_right, List.zipWith_self]

/-- **C24.** Charge is conserved: every block of the result comes from a block of `A` and a block of
`B`, and its flux is the sum of theirs, when the indices that are summed over have the same sectors
and opposite arrows. -/
theorem C24_flux {Lis Ris : IndexSet} (hL : (keys Lis).Nodup) (hR : (keys Ris).Nodup)
    (hq : hasQNs Lis = hasQNs Ris)
    (hsame : ∀ I ∈ Lis, ∀ J ∈ Ris, I.key = J.key → I.qns = J.qns ∧ I.dir = - J.dir)
    (hpos : ∀ I, (I ∈ Lis ∨ I ∈ Ris) → ∀ s ∈ I.qns, 0 < s.2)
    (order : List Task → List Task) {A B : QDense K} (hA : WF Lis A.offsets A.size)
    (hB : WF Ris B.offsets B.size) (fuel : Nat) (mem junk : Int → K) {C : QDense K} {N : List (Index × Int)}
    (hrun : contractQ order fuel Lis Ris A B mem junk = some (.ok (C, N))) :
    ∀ c ∈ C.offsets, ∃ a ∈ A.offsets, ∃ b ∈ B.offsets, ∀ n,
      fluxVal (N.map (·.1)) c.block n = fluxVal Lis a.block n + fluxVal Ris b.block n := by
  have hpS : ∀ X : IndexSet, (∀ I ∈ X, I ∈ Lis ∨ I ∈ Ris) → PosSectors X := by
    intro X hX I hI s hs
    obtain ⟨q, hq, rfl⟩ := List.mem_map.1 hs
    exact hpos I (hX I hI) q hq
  obtain ⟨lab, sz, eA, eB, hinj, hprod, hsz, hp⟩ := exists_pctx hL hR hq
    (fun I hI J hJ e => by unfold szs; rw [(hsame I hI J hJ e).1])
    (hpS Lis fun _ h => Or.inl h) (hpS Ris fun _ h => Or.inr h)
  set Nis := Lis.filter (fun i => i.key ∉ keys Ris) ++ Ris.filter (fun i => i.key ∉ keys Lis) with hN
  have hN1 : (prodInds Lis Ris).map (·.1) = Nis := by rw [hprod, List.map_map]; simp [Function.comp_def]
  have hpi : contractIS Lis Ris (computeLabels Lis Ris).1 (computeLabels Lis Ris).2.1 = prodInds Lis Ris := rfl
  have hbA : ∀ a ∈ A.offsets.map (·.block), Valid (nb Lis) a := by
    intro a ha; obtain ⟨o, ho, rfl⟩ := List.mem_map.1 ha; exact hA.valid o ho
  have hbB : ∀ a ∈ B.offsets.map (·.block), Valid (nb Ris) a := by
    intro a ha; obtain ⟨o, ho, rfl⟩ := List.mem_map.1 ha; exact hB.valid o ho
  unfold contractQ at hrun
  dsimp only at hrun
  rw [hpi, hN1] at hrun
  unfold getContractedOffsets at hrun
  rw [hp.src] at hrun
  simp only [Res.bind_ok] at hrun
  generalize hts : tasks Lis Ris _ (A.offsets.map (·.block)) (B.offsets.map (·.block)) = ts at hrun
  have hvc : ∀ c ∈ uniqBlocks (sortBlocks (ts.map (·.c))), ∃ β : Int → Nat, 
      (∀ x, (x ∈ (keys Lis).map lab ∨ x ∈ (keys Ris).map lab) → β x < lnb sz x) ∧
      ((keys Lis).map lab).map β ∈ A.offsets.map (·.block) ∧
      ((keys Ris).map lab).map β ∈ B.offsets.map (·.block) ∧
      c = (Nis.map fun i => lab i.key).map β := by
    intro c hc
    rw [uniqBlocks_mem, (sortBlocks_perm _).mem_iff] at hc
    obtain ⟨t, ht, rfl⟩ := List.mem_map.1 hc
    rw [← hts] at ht
    obtain ⟨β, hv, h1, h2, rfl⟩ := (hp.mem_tasks hbA hbB).1 ht
    exact ⟨β, hv, h1, h2, rfl⟩
  obtain ⟨Coff, Csize, hu1, hu2, hC⟩ := uoLoop_wf (is := Nis) (uniqBlocks_sorted _ (sortBlocks_le (ts.map (·.c))))
    (by
      intro c hc
      obtain ⟨β, hv, _, _, rfl⟩ := hvc c hc
      rw [hp.labN.nb, valid_map]
      exact fun x hx => hv x (hp.cmem hx))
  rw [hu1] at hrun
  simp only [Res.bind_ok] at hrun
  cases hf : runFold (doContract fuel Lis Ris Nis (computeLabels Lis Ris).1 (computeLabels Lis Ris).2.1
      ((prodInds Lis Ris).map (·.2)) A B Coff Csize junk) ⟨mem, fun _ => 0⟩ (order ts) with
  | none => rw [hf] at hrun; exact absurd hrun (by simp [Run.bind])
  | some r =>
    rw [hf] at hrun
    cases r with
    | throw => exact absurd hrun (by simp [Run.bind])
    | ub => exact absurd hrun (by simp [Run.bind])
    | ok s =>
      have hrun' : (⟨Coff, Csize, s.data⟩, prodInds Lis Ris) = (C, N) := by simpa [Run.bind] using hrun
      cases hrun'
      intro c hc
      have hcm : c.block ∈ uniqBlocks (sortBlocks (ts.map (·.c))) := by
        rw [← hu2]; exact List.mem_map_of_mem hc
      obtain ⟨β, hv, h1, h2, he⟩ := hvc _ hcm
      obtain ⟨a, ha, ea⟩ := List.mem_map.1 h1
      obtain ⟨b, hb, eb⟩ := List.mem_map.1 h2
      refine ⟨a, ha, b, hb, fun n => ?_⟩
      rw [hN1, he, ea, eb]
      simp only [keys, List.map_map]
      rw [show (β ∘ fun i : Index => lab i.key) = fun i => β (lab i.key) from rfl,
        show (β ∘ lab ∘ Index.key) = fun i => β (lab i.key) from rfl, fluxVal_map, fluxVal_map, fluxVal_map]
      rw [sum_filter_split Lis (fun i => i.key ∉ keys Ris), sum_filter_split Ris (fun i => i.key ∉ keys Lis), hN,
        List.map_append, List.sum_append]
      have := sum_opposite hL hR
        (fun I => ((I.qns.getD (β (lab I.key)) (Verif.QN.QN.default, 0)).1).val n * I.dir) (by
          intro I hI J hJ e
          obtain ⟨g1, g2⟩ := hsame I hI J hJ e
          rw [g1, g2, e]; ring)
      omega

/-! ## Example -/

/-- Storage of an example with the blocks (0,0) and (1,1). -/
def exD2 : QDense Int := ⟨[⟨[0, 0], 0⟩, ⟨[1, 1], 4⟩], 5, fun a => if a < 4 then a + 1 else 7⟩

theorem exD2_wf (i j : Nat) (di dj : Int) : WF [exI i di, exI j dj] exD2.offsets exD2.size := by
  refine ⟨by unfold SortedOff exD2; decide, ?_, rfl, rfl, rfl⟩
  intro o ho
  have : o = ⟨[0, 0], 0⟩ ∨ o = ⟨[1, 1], 4⟩ := by simpa [exD2] using ho
  rcases this with rfl | rfl <;>
  exact List.Forall₂.cons (by show _ < 2; decide) (List.Forall₂.cons (by show _ < 2; decide) List.Forall₂.nil)

theorem ex_offsets : getContractedOffsets [exI 1 1, exI 2 (-1)] (exD2.offsets.map (·.block)) [exI 2 1, exI 3 (-1)]
          (exD2.offsets.map (·.block)) ((prodInds [exI 1 1, exI 2 (-1)] [exI 2 1, exI 3 (-1)]).map (·.1)) =
          .ok ([⟨[0, 0], 0⟩, ⟨[1, 1], 4⟩], 5, [⟨[0, 0], [0, 0], [0, 0]⟩, ⟨[1, 1], [1, 1], [1, 1]⟩]) := by
  have e1 : cSource [exI 1 1, exI 2 (-1)] [exI 2 1, exI 3 (-1)] ((prodInds [exI 1 1, exI 2 (-1)]
      [exI 2 1, exI 3 (-1)]).map (·.1)) = .ok [.inl 0, .inr 1] := by decide +kernel
  have e2 : tasks [exI 1 1, exI 2 (-1)] [exI 2 1, exI 3 (-1)] [.inl 0, .inr 1]
      (exD2.offsets.map (·.block)) (exD2.offsets.map (·.block)) =
      [⟨[0, 0], [0, 0], [0, 0]⟩, ⟨[1, 1], [1, 1], [1, 1]⟩] := by decide +kernel
  have e3 : sortBlocks [[0, 0], [1, 1]] = [[0, 0], [1, 1]] :=
    List.mergeSort_of_pairwise (by decide)
  unfold getContractedOffsets
  rw [e1]
  simp only [Res.bind_ok]
  rw [e2]
  simp only [List.map_cons, List.map_nil]
  rw [e3]
  decide +kernel

/-- The hypotheses of `C24_contract` are met by two 3×3 matrices with two blocks each, multiplied as
`A_{1,2} B_{2,3}`, with the tasks run backwards; some elements of the product. -/
example : ∃ C N, contractQ List.reverse 100 [exI 1 1, exI 2 (-1)] [exI 2 1, exI 3 (-1)] exD2 exD2
      (fun _ => 99) (fun _ => 98) = some (.ok (C, N)) ∧ N.map (·.1) = [exI 1 1, exI 3 (-1)] ∧
      getElt C (N.map (·.1)) [0, 1] = .ok 15 ∧ getElt C (N.map (·.1)) [2, 2] = .ok 49 ∧
      getElt C (N.map (·.1)) [0, 2] = .ok 0 := by
  have hr : ∀ i j di dj ind, Valid ([exI i di, exI j dj].map fun I => (I.qns.map (·.2)).sum) ind →
      ∃ x, getElt exD2 [exI i di, exI j dj] ind = .ok x := fun i j di dj ind h => (C22_get (exD2_wf i j di dj) h).1
  have hpos : ∀ I, (I ∈ [exI 1 1, exI 2 (-1)] ∨ I ∈ [exI 2 1, exI 3 (-1)]) → ∀ s ∈ I.qns, 0 < s.2 := by
    rintro I (h | h)
    all_goals revert I; decide
  have hext : ∀ I, (I ∈ [exI 1 1, exI 2 (-1)] ∨ I ∈ [exI 2 1, exI 3 (-1)]) → 3 = (I.qns.map (·.2)).sum := by
    rintro I (h | h)
    all_goals revert I; decide
  obtain ⟨C, N, h1, h2, _, h4⟩ := C24_contract (Lis := [exI 1 1, exI 2 (-1)]) (Ris := [exI 2 1, exI 3 (-1)])
    (by decide) (by decide) (by decide) (by decide) hpos List.reverse (fun _ => List.reverse_perm _)
    (exD2_wf 1 2 1 (-1)) (exD2_wf 2 3 1 (-1)) 100 (by decide) (by decide)
    (by
      intro r hr
      rw [ex_offsets] at hr
      cases hr
      decide)
    (fun _ => 99) (fun _ => 98)
    (fun ind => match getElt exD2 [exI 1 1, exI 2 (-1)] ind with | .ok x => x | _ => 0)
    (fun ind => match getElt exD2 [exI 2 1, exI 3 (-1)] ind with | .ok x => x | _ => 0)
    (fun ind h => by obtain ⟨x, hx⟩ := hr 1 2 1 (-1) ind h; simp only [hx])
    (fun ind h => by obtain ⟨x, hx⟩ := hr 2 3 1 (-1) ind h; simp only [hx])
  have hN : N.map (·.1) = [exI 1 1, exI 3 (-1)] := by rw [h2]; decide +kernel
  have hNk : ∀ ρ : Key → Nat, N.map (fun p => ρ p.1.key) = [ρ (exI 1 1).key, ρ (exI 3 (-1)).key] := by
    intro ρ
    have : N.map (fun p => ρ p.1.key) = (N.map (·.1)).map fun I => ρ I.key := by rw [List.map_map]; rfl
    rw [this, hN]; rfl
  have h5 := fun (ρ : Key → Nat) (hρ : ∀ k, ρ k < 3) => (hNk ρ) ▸ h4 (fun _ => 3) hext ρ (fun I _ => hρ I.key)
  refine ⟨C, N, h1, hN, ?_, ?_, ?_⟩
  · exact (h5 (fun k => if k.1 = 3 then 1 else 0) (fun k => by split_ifs <;> decide)).trans (by decide +kernel)
  · exact (h5 (fun _ => 2) (fun _ => by decide)).trans (by decide +kernel)
  · exact (h5 (fun k => if k.1 = 3 then 2 else 0) (fun k => by split_ifs <;> decide)).trans (by decide +kernel)

end

end Verif.QDense
