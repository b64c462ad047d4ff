import Verif.QDense.Schedule

/-!
# C25: the parallel block contraction
-/

namespace Verif.QDense

open Verif Verif.Tensor Verif.Index Verif.Index.IndexSet Finset

theorem sortedB_unique {l m : List Block} (hl : SortedB l) (hm : SortedB m) (h : ∀ x, x ∈ l ↔ x ∈ m) : l = m := by
  refine List.Perm.eq_of_pairwise (le := fun a b => blockLt a b = true) ?_ hl hm
    ((List.perm_ext_iff_of_nodup hl.nodup hm.nodup).2 h)
  intro a b _ _ h1 h2
  rw [blockLt_asymm h1] at h2
  exact absurd h2 (by simp)

section
variable {K : Type*} [CommRing K] [DecidableEq K]

/-- Locations belonging to iteration `g` of the parallel loop, whose block starts at `o` and has `n`
elements. -/
def Reg (g o n : Nat) : Loc → Prop
  | .c a => (o : Int) ≤ a ∧ a < (o + n : Nat)
  | .beta k => k = g
  | .priv g' _ => g' = g

/-- The part of memory that `doContract` works on. -/
def cst (s : St K) : CState K := ⟨fun a => s (.c a), fun k => s (.beta k)⟩

/-- The steps `prog g t` are an implementation of task `t` in iteration `g`: they touch only the block
of the task, its flag, and private memory, and executed without interruption they compute what
`doContract` computes. -/
structure ProgOK (dc : CState K → Task → Run (CState K)) (Nis : IndexSet) (Coff : List BlOf) (ts : List Task)
    (prog : Nat → Task → List (St K → St K)) : Prop where
  conf : ∀ g o, Coff[g]? = some o → ∀ t ∈ ts, t.c = o.block → ∀ f ∈ prog g t,
    Confined (Reg g o.offset (bdim Nis o.block)) f
  run : ∀ g o, Coff[g]? = some o → ∀ t ∈ ts, t.c = o.block → ∀ s s1, dc (cst s) t = some (.ok s1) →
    (∀ a : Int, (o.offset : Int) ≤ a → a < (o.offset + bdim Nis o.block : Nat) →
      runAll (prog g t) s (.c a) = s1.data a) ∧ runAll (prog g t) s (.beta g) = s1.betas g

variable {sz : Int → List Nat} {Lis Ris Nis : IndexSet} {La Rb Ci : List Int}

/-- An implementation of a task with one step per element written. -/
def elemProg (sz : Int → List Nat) (Lis Ris Nis : IndexSet) (La Rb Ci : List Int) (A B : QDense K) (Coff : List BlOf)
    (g : Nat) (t : Task) : List (St K → St K) :=
  match Coff[g]? with
  | some o => ((List.range (bdim Nis o.block)).map fun (k : Nat) (s : St K) =>
      Function.update (β := fun _ => K) s (Loc.c ((o.offset + k : Nat) : Int))
      (contr sz Lis Ris La Rb Ci A B t (unrank (bext Nis o.block) k) +
        s (.beta g) * s (.c ((o.offset + k : Nat) : Int)))) ++ [fun (s : St K) => Function.update (β := fun _ => K) s (Loc.beta g) 1]
  | none => []

omit [CommRing K] [DecidableEq K] in
theorem runAll_one (f : St K → St K) (s : St K) : runAll [f] s = f s := rfl

theorem runAll_elems (o g : Nat) (v : Nat → K) (n : Nat) (s : St K) :
    (∀ k, runAll ((List.range n).map fun (k : Nat) (s : St K) => Function.update s (.c ((o + k : Nat) : Int))
      (v k + s (.beta g) * s (.c ((o + k : Nat) : Int)))) s (.beta k) = s (.beta k)) ∧
    (∀ k, runAll ((List.range n).map fun (k : Nat) (s : St K) => Function.update s (.c ((o + k : Nat) : Int))
      (v k + s (.beta g) * s (.c ((o + k : Nat) : Int)))) s (.c ((o + k : Nat) : Int)) =
      if k < n then v k + s (.beta g) * s (.c ((o + k : Nat) : Int)) else s (.c ((o + k : Nat) : Int))) := by
  induction n with
  | zero => simp [runAll]
  | succ n ih =>
    obtain ⟨h1, h2⟩ := ih
    rw [List.range_succ, List.map_append]
    refine ⟨fun k => ?_, fun k => ?_⟩
    · rw [runAll_append]
      simp only [List.map_cons, List.map_nil]
      rw [runAll_one]
      rw [Function.update_of_ne (by simp), h1]
    · rw [runAll_append]
      simp only [List.map_cons, List.map_nil]
      rw [runAll_one]
      by_cases e : k = n
      · subst e
        rw [Function.update_self, h1, h2, if_neg (by omega), if_pos (by omega)]
      · rw [Function.update_of_ne (by simp; omega), h2]
        by_cases hk : k < n
        · rw [if_pos hk, if_pos (by omega)]
        · rw [if_neg hk, if_neg (by omega)]

theorem elemProg_ok (h : PCtx sz Lis Ris Nis La Rb Ci) {A B : QDense K}
    (hA : WF Lis A.offsets A.size) (hB : WF Ris B.offsets B.size) {Coff : List BlOf} {Csize : Nat}
    (hC : WF Nis Coff Csize) {fuel : Nat} (hfa : A.size < fuel) (hfb : B.size < fuel) (hfc : Csize < fuel)
    (hma : (A.size : Int) ≤ offMax) (hmb : (B.size : Int) ≤ offMax) (hmc : (Csize : Int) ≤ offMax)
    (junk : Int → K) {ts : List Task} (hl : ∀ t ∈ ts, ∃ β : Int → Nat, (∀ x, (x ∈ La ∨ x ∈ Rb) → β x < lnb sz x) ∧
      La.map β ∈ A.offsets.map (·.block) ∧ Rb.map β ∈ B.offsets.map (·.block) ∧
      Ci.map β ∈ Coff.map (·.block) ∧ t = mkTask La Rb Ci β) :
    ProgOK (doContract fuel Lis Ris Nis La Rb Ci A B Coff Csize junk) Nis Coff ts
      (elemProg sz Lis Ris Nis La Rb Ci A B Coff) := by
  refine ⟨?_, ?_⟩
  · intro g o hg t ht htc f hf
    simp only [elemProg, hg, List.mem_append, List.mem_map, List.mem_range, List.mem_singleton] at hf
    rcases hf with ⟨k, hk, rfl⟩ | rfl
    · refine ⟨fun s l hn => ?_, fun s s' hs l hr => ?_⟩
      all_goals dsimp only
      · refine Function.update_of_ne ?_ _ _
        rintro rfl
        exact hn (by simp only [Reg]; omega)
      · by_cases e : l = .c ((o.offset + k : Nat) : Int)
        · subst e
          rw [Function.update_self, Function.update_self, hs _ hr, hs (.beta g) rfl]
        · rw [Function.update_of_ne e, Function.update_of_ne e, hs _ hr]
    · refine ⟨fun s l hn => ?_, fun s s' hs l hr => ?_⟩
      all_goals dsimp only
      · refine Function.update_of_ne ?_ _ _
        rintro rfl
        exact hn rfl
      · by_cases e : l = .beta g
        · subst e
          rw [Function.update_self, Function.update_self]
        · rw [Function.update_of_ne e, Function.update_of_ne e, hs _ hr]
  · intro g o hg t ht htc s s1 hs1
    have ho : o ∈ Coff := List.mem_of_getElem? hg
    have hov := hC.valid o ho
    have hlb : lowerBound Coff o.block = g := lowerBound_mem hC.sorted hg
    obtain ⟨β, h1, h2, h3, h4, rfl⟩ := hl t ht
    have hc' : Ci.map β = o.block := htc
    obtain ⟨s1', e1, b1, v1⟩ := doContract_spec h hA hB hC hfa hfb hfc hma hmb hmc junk (cst s) h1 h2 h3 h4
    rw [hs1] at e1
    cases e1
    obtain ⟨r1, r2⟩ := runAll_elems o.offset g
      (fun k => contr sz Lis Ris La Rb Ci A B (mkTask La Rb Ci β) (unrank (bext Nis o.block) k))
      (bdim Nis o.block) s
    simp only [elemProg, hg, runAll_append]
    refine ⟨fun a ha1 ha2 => ?_, ?_⟩
    · rw [runAll_one]
      rw [Function.update_of_ne (by simp)]
      obtain ⟨k, rfl⟩ : ∃ k : Nat, a = ((o.offset + k : Nat) : Int) := ⟨(a - o.offset).toNat, by push_cast; omega⟩
      have hk : k < bdim Nis o.block := by omega
      have hk' : k < (bext Nis o.block).prod := hk
      rw [r2 k, if_pos hk]
      have := v1 o.block _ hov (unrank_valid hk')
      rw [hc', if_pos rfl, hlb] at this
      unfold elem at this
      rw [getBlock_mem (d := ⟨Coff, Csize, _⟩) hC ho, getBlock_mem (d := ⟨Coff, Csize, _⟩) hC ho] at this
      dsimp only at this
      rw [rank_unrank hk'] at this
      exact this.symm
    · rw [runAll_one]
      rw [Function.update_self, b1, hc', hlb, if_pos rfl]

/-- One group of tasks run by its micro steps. -/
theorem runGroup_spec (h : PCtx sz Lis Ris Nis La Rb Ci) {A B : QDense K}
    (hA : WF Lis A.offsets A.size) (hB : WF Ris B.offsets B.size) {Coff : List BlOf} {Csize : Nat}
    (hC : WF Nis Coff Csize) {fuel : Nat} (hfa : A.size < fuel) (hfb : B.size < fuel) (hfc : Csize < fuel)
    (hma : (A.size : Int) ≤ offMax) (hmb : (B.size : Int) ≤ offMax) (hmc : (Csize : Int) ≤ offMax)
    (junk : Int → K) {prog : Nat → Task → List (St K → St K)} {ts : List Task}
    (hprog : ProgOK (doContract fuel Lis Ris Nis La Rb Ci A B Coff Csize junk) Nis Coff ts prog)
    {g : Nat} {o : BlOf} (hg : Coff[g]? = some o) (l : List Task) (hts : ∀ t ∈ l, t ∈ ts)
    (hl : ∀ t ∈ l, t.c = o.block ∧ ∃ β : Int → Nat, (∀ x, (x ∈ La ∨ x ∈ Rb) → β x < lnb sz x) ∧
      La.map β ∈ A.offsets.map (·.block) ∧ Rb.map β ∈ B.offsets.map (·.block) ∧
      Ci.map β ∈ Coff.map (·.block) ∧ t = mkTask La Rb Ci β) (s : St K) :
    ∀ u, Valid (bext Nis o.block) u →
      elem ⟨Coff, Csize, fun a => runAll (l.flatMap (prog g)) s (.c a)⟩ Nis o.block u = if l = [] then
        elem ⟨Coff, Csize, fun a => s (.c a)⟩ Nis o.block u else
        (l.map fun t => contr sz Lis Ris La Rb Ci A B t u).sum +
          s (.beta g) * elem ⟨Coff, Csize, fun a => s (.c a)⟩ Nis o.block u := by
  intro u hu
  have ho : o ∈ Coff := List.mem_of_getElem? hg
  have hov := hC.valid o ho
  induction l generalizing s with
  | nil => rfl
  | cons t l ih =>
    obtain ⟨hc, β, h1, h2, h3, h4, rfl⟩ := hl t (by simp)
    have hc' : Ci.map β = o.block := hc
    obtain ⟨s1, e1, b1, v1⟩ := doContract_spec h hA hB hC hfa hfb hfc hma hmb hmc junk (cst s) h1 h2 h3 h4
    obtain ⟨r1, r2⟩ := hprog.run g o hg _ (hts _ (by simp)) hc s s1 e1
    have hlb : lowerBound Coff o.block = g := lowerBound_mem hC.sorted hg
    rw [List.flatMap_cons, runAll_append]
    rw [ih (fun t ht => hts t (by simp [ht])) (fun t ht => hl t (by simp [ht]))]
    have hel : elem ⟨Coff, Csize, fun a => runAll (prog g (mkTask La Rb Ci β)) s (.c a)⟩ Nis o.block u =
        contr sz Lis Ris La Rb Ci A B (mkTask La Rb Ci β) u +
          s (.beta g) * elem ⟨Coff, Csize, fun a => s (.c a)⟩ Nis o.block u := by
      have := v1 o.block u hov hu
      rw [hc', if_pos rfl, hlb] at this
      have e2 : elem ⟨Coff, Csize, s1.data⟩ Nis o.block u =
          elem ⟨Coff, Csize, fun a => runAll (prog g (mkTask La Rb Ci β)) s (.c a)⟩ Nis o.block u := by
        unfold elem
        rw [getBlock_mem (d := ⟨Coff, Csize, s1.data⟩) hC ho, getBlock_mem (d := ⟨Coff, Csize, _⟩) hC ho]
        have hr := rank_lt hu
        refine (r1 _ (by push_cast; omega) ?_).symm
        unfold bdim
        exact_mod_cast Nat.add_lt_add_left hr _
      rw [← e2, this]
      rfl
    have hbe : runAll (prog g (mkTask La Rb Ci β)) s (.beta g) = 1 := by
      rw [r2, b1, hc', hlb, if_pos rfl]
    rw [hel, hbe]
    simp only [List.map_cons, List.sum_cons, reduceCtorEq, if_false]
    split_ifs with hnil
    · subst hnil; simp
    · ring

/-- **C25.** The OpenMP build of the block contraction gives the same elements as the sequential loop,
for every schedule. `parts`: the blocks of `A` as the threads of the first parallel loop
(qutil.h:150-205) happened to take them. `sorted`: the result of the unstable `std::sort` of the task
list. `prog`: the memory accesses of a task as steps of any granularity (`ProgOK`). `sch`: the order in
which the iterations of the second parallel loop (qutil.h:330-348) perform their steps. Programs with
`ProgOK` exist, and `runSched_finish` says that schedules finishing them exist. -/
theorem C25_schedule {Lis Ris : IndexSet} (hL : (keys Lis).Nodup) (hR : (keys Ris).Nodup)
    (hq : hasQNs Lis = hasQNs Ris)
    (hsame : ∀ I ∈ Lis, ∀ J ∈ Ris, I.key = J.key → I.qns.map (·.2) = J.qns.map (·.2))
    (hpos : ∀ I, (I ∈ Lis ∨ I ∈ Ris) → ∀ s ∈ I.qns, 0 < s.2)
    {A B : QDense K} (hA : WF Lis A.offsets A.size) (hB : WF Ris B.offsets B.size) (fuel : Nat)
    (hsA : A.size < fuel ∧ (A.size : Int) ≤ offMax) (hsB : B.size < fuel ∧ (B.size : Int) ≤ offMax)
    (hsC : ∀ r, getContractedOffsets Lis (A.offsets.map (·.block)) Ris (B.offsets.map (·.block))
      ((prodInds Lis Ris).map (·.1)) = .ok r → r.2.1 < fuel ∧ (r.2.1 : Int) ≤ offMax)
    (mem junk : Int → K) :
    ∃ C N src, contractQ id fuel Lis Ris A B mem junk = some (.ok (C, N)) ∧
      cSource Lis Ris (N.map (·.1)) = .ok src ∧
      ∀ (parts : List (List Block)), parts.flatten.Perm (A.offsets.map (·.block)) →
      ∀ (sorted : List Task),
        sorted.Perm (parts.flatMap fun p => tasks Lis Ris src p (B.offsets.map (·.block))) →
        sorted.Pairwise (fun t t' => blockLt t'.c t.c = false) →
      ∃ off rep, plan C.offsets.length (sorted.map (·.c)) = .ok (off, rep) ∧
        (∀ g, g < C.offsets.length → off g + rep g ≤ sorted.length) ∧
        (∃ prog, ProgOK (doContract fuel Lis Ris (N.map (·.1)) (computeLabels Lis Ris).1
            (computeLabels Lis Ris).2.1 (N.map (·.2)) A B C.offsets C.size junk) (N.map (·.1)) C.offsets sorted
            prog) ∧
        ∀ prog : Nat → Task → List (St K → St K),
          ProgOK (doContract fuel Lis Ris (N.map (·.1)) (computeLabels Lis Ris).1 (computeLabels Lis Ris).2.1
            (N.map (·.2)) A B C.offsets C.size junk) (N.map (·.1)) C.offsets sorted prog →
        ∀ s0 : St K, (∀ k, s0 (.beta k) = 0) → ∀ (sch : List Nat) (final : St K)
          (_hrun : runSched sch (fun g => if g < C.offsets.length then (group sorted off rep g).flatMap (prog g)
            else []) s0 = (fun _ => [], final)),
        ∀ ind, Valid ((N.map (·.1)).map fun I => (I.qns.map (·.2)).sum) ind →
          getElt ⟨C.offsets, C.size, fun a => final (.c a)⟩ (N.map (·.1)) ind =
            getElt C (N.map (·.1)) ind := by
  have hpS : ∀ X : IndexSet, (∀ I ∈ X, I ∈ Lis ∨ I ∈ Ris) → PosSectors X := by
    intro X hX I hI s hs
    obtain ⟨q, hq, rfl⟩ := List.mem_map.1 hs
    exact hpos I (hX I hI) q hq
  obtain ⟨lab, sz, eA, eB, hinj, hprod, hsz, hp⟩ := exists_pctx hL hR hq hsame
    (hpS Lis fun _ h => Or.inl h) (hpS Ris fun _ h => Or.inr h)
  set Nis := Lis.filter (fun i => i.key ∉ keys Ris) ++ Ris.filter (fun i => i.key ∉ keys Lis) with hN
  set La := (keys Lis).map lab with hLa
  set Rb := (keys Ris).map lab with hRb
  set Ci := Nis.map (fun i => lab i.key) with hCi
  have hN1 : (prodInds Lis Ris).map (·.1) = Nis := by rw [hprod, List.map_map]; simp [Function.comp_def]
  have hN2 : (prodInds Lis Ris).map (·.2) = Ci := by rw [hprod, List.map_map]; rfl
  set src := Ci.map (fun x => if x ∈ La then (.inl (La.idxOf x) : Nat ⊕ Nat) else .inr (Rb.idxOf x)) with hsrc
  set ts := tasks Lis Ris src (A.offsets.map (·.block)) (B.offsets.map (·.block)) with hts
  have hbA : ∀ a ∈ A.offsets.map (·.block), Valid (nb Lis) a := by
    intro a ha; obtain ⟨o, ho, rfl⟩ := List.mem_map.1 ha; exact hA.valid o ho
  have hbB : ∀ a ∈ B.offsets.map (·.block), Valid (nb Ris) a := by
    intro a ha; obtain ⟨o, ho, rfl⟩ := List.mem_map.1 ha; exact hB.valid o ho
  have hmem := fun t => hp.mem_tasks hbA hbB (t := t)
  have hvc : ∀ c ∈ uniqBlocks (sortBlocks (ts.map (·.c))), Valid (nb Nis) c := by
    intro c hc
    rw [uniqBlocks_mem, (sortBlocks_perm _).mem_iff] at hc
    obtain ⟨t, ht, rfl⟩ := List.mem_map.1 hc
    obtain ⟨β, hv, _, _, rfl⟩ := (hmem t).1 ht
    change Valid _ (Ci.map β)
    rw [hp.labN.nb, valid_map]
    exact fun x hx => hv x (hp.cmem hx)
  have hsb := uniqBlocks_sorted _ (sortBlocks_le (ts.map (·.c)))
  obtain ⟨Coff, Csize, hu1, hu2, hC⟩ := uoLoop_wf hsb hvc
  have hgo : getContractedOffsets Lis (A.offsets.map (·.block)) Ris (B.offsets.map (·.block)) Nis =
      .ok (Coff, Csize, ts) := by
    unfold getContractedOffsets
    rw [hp.src]
    simp only [Res.bind_ok, ← hsrc, ← hts, hu1]
  have hCs := hsC _ (by rw [hN1]; exact hgo)
  dsimp only at hCs
  have hCm : ∀ c, c ∈ Coff.map (·.block) ↔ c ∈ ts.map (·.c) := by
    intro c; rw [hu2, uniqBlocks_mem, (sortBlocks_perm _).mem_iff]
  have htask : ∀ t ∈ ts, ∃ β : Int → Nat, (∀ x, (x ∈ La ∨ x ∈ Rb) → β x < lnb sz x) ∧
      La.map β ∈ A.offsets.map (·.block) ∧ Rb.map β ∈ B.offsets.map (·.block) ∧
      Ci.map β ∈ Coff.map (·.block) ∧ t = mkTask La Rb Ci β := by
    intro t ht
    obtain ⟨β, h1, h2, h3, rfl⟩ := (hmem t).1 ht
    exact ⟨β, h1, h2, h3, (hCm _).2 (List.mem_map.2 ⟨_, ht, rfl⟩), rfl⟩
  obtain ⟨s', hrun, hval⟩ := runTasks_spec hp hA hB hC hsA.1 hsB.1 hCs.1 hsA.2 hsB.2 hCs.2 junk ts
    ⟨mem, fun _ => 0⟩ htask
  have hpi : contractIS Lis Ris (computeLabels Lis Ris).1 (computeLabels Lis Ris).2.1 = prodInds Lis Ris := rfl
  refine ⟨⟨Coff, Csize, s'.data⟩, prodInds Lis Ris, src, ?_, by rw [hN1, hp.src], ?_⟩
  · unfold contractQ
    dsimp only
    rw [hpi, hN1, hN2, hgo, eA, eB]
    dsimp only [id]
    rw [hrun]
    rfl
  intro parts hparts sorted hsorted hpw
  have hperm : sorted.Perm ts := by
    refine hsorted.trans ?_
    have : (parts.flatMap fun p => tasks Lis Ris src p (B.offsets.map (·.block))) =
        tasks Lis Ris src parts.flatten (B.offsets.map (·.block)) := by
      unfold tasks
      rw [← List.flatMap_id' (L := parts), List.flatMap_assoc]
    rw [this]
    exact hparts.flatMap_right _
  have hlabs : uniqBlocks (sorted.map (·.c)) = Coff.map (·.block) := by
    rw [hu2]
    refine sortedB_unique (uniqBlocks_sorted _ (List.pairwise_map.2 hpw)) hsb ?_
    intro x
    rw [uniqBlocks_mem, uniqBlocks_mem, (sortBlocks_perm _).mem_iff, (hperm.map _).mem_iff]
  have hnnz : (uniqBlocks (sorted.map (·.c))).length = Coff.length := by rw [hlabs]; simp
  obtain ⟨off, rep, hplan, hok⟩ := plan_spec (sorted.map (·.c))
  rw [hnnz] at hplan hok
  refine ⟨off, rep, hplan, fun g hg => by simpa using hok.off_le g hg, ?_⟩
  rw [hN1, hN2, eA, eB]
  refine ⟨⟨_, elemProg_ok hp hA hB hC hsA.1 hsB.1 hCs.1 hsA.2 hsB.2 hCs.2 junk
    (fun t ht => htask t (hperm.mem_iff.1 ht))⟩, ?_⟩
  intro prog hprog s0 hs0 sch final hfin ind hind
  -- labels of the groups
  have hglab : ∀ g o, Coff[g]? = some o → ∀ t ∈ group sorted off rep g, t.c = o.block ∧ t ∈ sorted := by
    intro g o hg t ht
    have hgl : g < Coff.length := (List.getElem?_eq_some_iff.1 hg).1
    refine ⟨?_, List.mem_of_mem_drop (List.mem_of_mem_take ht)⟩
    obtain ⟨k, hk⟩ := List.mem_iff_getElem?.1 ht
    have hkl : k < rep g := by
      have := (List.getElem?_eq_some_iff.1 hk).1
      simp only [group, List.length_take] at this
      omega
    simp only [group, List.getElem?_take_of_lt hkl, List.getElem?_drop] at hk
    have h1 := hok.same g hgl (off g + k) (by omega) (by omega)
    rw [hok.lab g hgl, hlabs, List.getElem?_map, List.getElem?_map, hk, hg] at h1
    simpa using h1
  have hdis : ∀ (g g' : Nat) (l : Loc) , (∃ o, Coff[g]? = some o ∧ Reg g o.offset (bdim Nis o.block) l) →
      (∃ o, Coff[g']? = some o ∧ Reg g' o.offset (bdim Nis o.block) l) → g = g' := by
    rintro g g' l ⟨o, ho, hr⟩ ⟨o', ho', hr'⟩
    cases l with
    | beta k => exact hr.symm.trans hr'
    | priv g1 n => exact hr.symm.trans hr'
    | c a =>
      by_contra hne
      have hne' : o ≠ o' := by
        rintro rfl
        have hnd : (Coff.map (·.block)).Nodup := sortedOff_nodup hC.sorted
        have hg := (List.getElem?_eq_some_iff.1 ho)
        have hg' := (List.getElem?_eq_some_iff.1 ho')
        obtain ⟨x1, x2⟩ := hg
        obtain ⟨y1, y2⟩ := hg'
        have := (List.Nodup.getElem_inj_iff (List.Nodup.of_map _ hnd) (i := g) (j := g') (hi := x1) (hj := y1)).1
          (by rw [x2, y2])
        exact hne this
      have hd := hC.disjoint (List.mem_of_getElem? ho) (List.mem_of_getElem? ho') hne'
      simp only [Reg] at hr hr'
      omega
  obtain ⟨hsp, _⟩ := runSched_spec (K := K)
    (R := fun g l => ∃ o, Coff[g]? = some o ∧ Reg g o.offset (bdim Nis o.block) l) hdis sch
    (fun g => if g < Coff.length then (group sorted off rep g).flatMap (prog g) else []) (by
      intro g f hf
      by_cases hg : g < Coff.length
      · simp only [hg, if_true, List.mem_flatMap] at hf
        obtain ⟨t, ht, hf⟩ := hf
        have ho := List.getElem?_eq_getElem hg
        obtain ⟨h1, h2⟩ := hglab g _ ho t ht
        have hcf := hprog.conf g _ ho t h2 h1 f hf
        constructor
        · intro s l hl
          exact hcf.1 s l (fun hr => hl ⟨_, ho, hr⟩)
        · rintro s s'' hss l ⟨o, ho', hr⟩
          rw [ho] at ho'
          cases ho'
          exact hcf.2 s s'' (fun l hl => hss l ⟨_, ho, hl⟩) l hr
      · simp [hg] at hf) s0
  dsimp only at hfin
  rw [hfin] at hsp
  -- compare block by block
  obtain ⟨b, u, hb, hu, rfl⟩ := exists_glue (is := Nis) hind
  rw [getElt_glue (d := ⟨Coff, Csize, _⟩) hC hb hu, getElt_glue (d := ⟨Coff, Csize, _⟩) hC hb hu]
  congr 1
  by_cases hin : b ∈ Coff.map (·.block)
  · obtain ⟨o, ho, rfl⟩ := List.mem_map.1 hin
    obtain ⟨g, hg⟩ := List.mem_iff_getElem?.1 ho
    have hgl : g < Coff.length := (List.getElem?_eq_some_iff.1 hg).1
    have hgsub : ∀ t ∈ group sorted off rep g, t ∈ sorted := fun t ht => (hglab g o hg t ht).2
    have hrg := runGroup_spec hp hA hB hC hsA.1 hsB.1 hCs.1 hsA.2 hsB.2 hCs.2 junk hprog hg
      (group sorted off rep g) hgsub
      (fun t ht => ⟨(hglab g o hg t ht).1, htask t (hperm.mem_iff.1 (hgsub t ht))⟩) s0 u hu
    have hne : group sorted off rep g ≠ [] := by
      intro e
      have h1 := hok.pos g hgl
      have h2 := hok.off_le g hgl
      have := congrArg List.length e
      simp only [group, List.length_take, List.length_drop, List.length_nil, List.length_map] at this h2
      omega
    rw [if_neg hne, hs0, zero_mul, add_zero] at hrg
    have hfinal : elem ⟨Coff, Csize, fun a => final (.c a)⟩ Nis o.block u =
        elem ⟨Coff, Csize, fun a => runAll ((group sorted off rep g).flatMap (prog g)) s0 (.c a)⟩ Nis o.block u := by
      unfold elem
      rw [getBlock_mem (d := ⟨Coff, Csize, _⟩) hC ho, getBlock_mem (d := ⟨Coff, Csize, _⟩) hC ho]
      have hr := rank_lt hu
      have := hsp g (.c ((o.offset + rank (bext Nis o.block) u : Nat) : Int)) ⟨o, hg, by
        simp only [Reg]
        refine ⟨by push_cast; omega, ?_⟩
        unfold bdim
        exact_mod_cast Nat.add_lt_add_left hr _⟩
      simp only [hgl, if_true] at this
      exact this
    rw [hfinal, hrg, hval _ _ hb hu]
    have hcin : o.block ∈ ts.map (·.c) := (hCm _).1 hin
    rw [if_pos hcin, zero_mul, add_zero]
    -- the group is the set of tasks of the block
    have hgrp : group sorted off rep g = sorted.filter (fun t => decide (t.c = o.block)) := by
      have hfl := flatten_groups hok sorted (by simp) (fun e => by
        have : uniqBlocks (sorted.map (·.c)) = [] := List.length_eq_zero_iff.1 (by omega)
        cases hs : sorted.map (·.c) with
        | nil => rfl
        | cons x l =>
          have hx : x ∈ uniqBlocks (sorted.map (·.c)) := by rw [uniqBlocks_mem, hs]; simp
          rw [this] at hx; simp at hx)
      conv_rhs => rw [← hfl]
      rw [List.filter_flatMap]
      have hsplit : ∀ n, n ≤ Coff.length → (List.range n).flatMap (fun g' =>
          (group sorted off rep g').filter (fun t => decide (t.c = o.block))) =
          if g < n then group sorted off rep g else [] := by
        intro n
        induction n with
        | zero => intro _; simp
        | succ n ih =>
          intro hn
          rw [List.range_succ, List.flatMap_append, ih (by omega)]
          simp only [List.flatMap_cons, List.flatMap_nil, List.append_nil]
          have hon := List.getElem?_eq_getElem (l := Coff) (i := n) (by omega)
          by_cases e : n = g
          · subst e
            rw [if_neg (by omega), if_pos (by omega), List.nil_append, List.filter_eq_self]
            intro t ht
            simp [(hglab n o hg t ht).1]
          · have : (group sorted off rep n).filter (fun t => decide (t.c = o.block)) = [] := by
              rw [List.filter_eq_nil_iff]
              intro t ht
              have := (hglab n _ hon t ht).1
              simp only [decide_eq_true_eq, this]
              intro heq
              have hoo := hC.block_inj (List.getElem_mem (l := Coff) (n := n) (by omega)) ho heq
              have hnd : (Coff.map (·.block)).Nodup := sortedOff_nodup hC.sorted
              obtain ⟨x1, x2⟩ := List.getElem?_eq_some_iff.1 hg
              exact e ((List.Nodup.getElem_inj_iff (List.Nodup.of_map _ hnd) (i := n) (j := g)
                (hi := by omega) (hj := x1)).1 (by rw [x2, hoo]))
            rw [this, List.append_nil]
            by_cases hlt : g < n
            · rw [if_pos hlt, if_pos (by omega)]
            · rw [if_neg hlt, if_neg (by omega)]
      rw [hsplit _ (Nat.le_refl _), if_pos hgl]
    rw [hgrp]
    exact ((hperm.filter _).map _).sum_eq
  · rw [elem_zero_of_notMem (d := ⟨Coff, Csize, _⟩) hC hb hin,
      elem_zero_of_notMem (d := ⟨Coff, Csize, _⟩) hC hb hin]

/-- The loop computing the plan, on five tasks for three blocks. -/
example : (plan 3 [[0, 0], [0, 0], [0, 1], [1, 1], [1, 1]]).map (fun p =>
    ([p.1 0, p.1 1, p.1 2], [p.2 0, p.2 1, p.2 2])) = .ok ([0, 2, 3], [2, 1, 2]) := by decide +kernel

/-- C25 applied to a product of two 2-block tensors, the first loop having been run by two threads. -/
example : ∃ C N, contractQ id 100 [exI 1 1, exI 2 (-1)] [exI 2 1, exI 3 (-1)] exD2 exD2
      (fun _ => 99) (fun _ => 98) = some (.ok (C, N)) ∧ ∃ off rep,
      plan C.offsets.length [[0, 0], [1, 1]] = .ok (off, rep) ∧
      ∃ (prog : Nat → Task → List (St Int → St Int)) (sch : List Nat) (final : St Int),
        runSched sch (fun g => if g < C.offsets.length then
          (group [⟨[0, 0], [0, 0], [0, 0]⟩, ⟨[1, 1], [1, 1], [1, 1]⟩] off rep g).flatMap (prog g) else [])
          (fun l => match l with | .beta _ => 0 | _ => 7) = (fun _ => [], final) ∧
        getElt ⟨C.offsets, C.size, fun a => final (.c a)⟩ (N.map (·.1)) [0, 1] = getElt C (N.map (·.1)) [0, 1] := by
  have hpos : ∀ I, (I ∈ [exI 1 1, exI 2 (-1)] ∨ I ∈ [exI 2 1, exI 3 (-1)]) → ∀ s ∈ I.qns, 0 < s.2 := by
    rintro I (h | h)
    all_goals revert I; decide
  obtain ⟨C, N, src, h1, h2, h3⟩ := C25_schedule (Lis := [exI 1 1, exI 2 (-1)]) (Ris := [exI 2 1, exI 3 (-1)])
    (by decide) (by decide) (by decide) (by decide) hpos
    (exD2_wf 1 2 1 (-1)) (exD2_wf 2 3 1 (-1)) 100 (by decide) (by decide)
    (by intro r hr; rw [ex_offsets] at hr; cases hr; decide) (fun _ => 99) (fun _ => 98)
  have hNN : N = prodInds [exI 1 1, exI 2 (-1)] [exI 2 1, exI 3 (-1)] := by
    unfold contractQ at h1
    have hpi : contractIS [exI 1 1, exI 2 (-1)] [exI 2 1, exI 3 (-1)]
      (computeLabels [exI 1 1, exI 2 (-1)] [exI 2 1, exI 3 (-1)]).1
      (computeLabels [exI 1 1, exI 2 (-1)] [exI 2 1, exI 3 (-1)]).2.1 =
      prodInds [exI 1 1, exI 2 (-1)] [exI 2 1, exI 3 (-1)] := rfl
    dsimp only at h1
    rw [hpi, ex_offsets] at h1
    dsimp only at h1
    generalize runFold _ _ _ = z at h1
    match z, h1 with
    | some (.ok s), h1 => simp only [Run.bind, Option.some.injEq, Res.ok.injEq, Prod.mk.injEq] at h1; exact h1.2.symm
  have hsrc : src = [.inl 0, .inr 1] := by
    have e : cSource [exI 1 1, exI 2 (-1)] [exI 2 1, exI 3 (-1)] ((prodInds [exI 1 1, exI 2 (-1)]
            [exI 2 1, exI 3 (-1)]).map (·.1)) = .ok [.inl 0, .inr 1] := by decide +kernel
    rw [hNN, e] at h2
    cases h2; rfl
  subst hsrc
  obtain ⟨off, rep, h4, _, ⟨prog, hprog⟩, h6⟩ := h3 [[[1, 1]], [[0, 0]]] (by decide)
    [⟨[0, 0], [0, 0], [0, 0]⟩, ⟨[1, 1], [1, 1], [1, 1]⟩] (by decide +kernel) (by decide +kernel)
  obtain ⟨sch, final, h7⟩ := runSched_finish C.offsets.length (fun g => if g < C.offsets.length then
          (group [⟨[0, 0], [0, 0], [0, 0]⟩, ⟨[1, 1], [1, 1], [1, 1]⟩] off rep g).flatMap (prog g) else [])
      (fun g hg => if_neg (by omega)) (fun l => match l with | .beta _ => (0 : Int) | _ => 7)
  refine ⟨C, N, h1, off, rep, h4, prog, sch, final, h7, ?_⟩
  exact h6 prog hprog _ (fun _ => rfl) sch final h7 [0, 1] (by rw [hNN]; decide +kernel)

end

end Verif.QDense
