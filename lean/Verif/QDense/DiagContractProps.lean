import Verif.QDense.DiagContractSteps

/-!
# Products of block-sparse and diagonal tensors with quantum numbers

What `Verif/QDense/DiagContract.lean` computes. Property C103.
-/

namespace Verif.QDense

open Verif.Index (Index IndexSet)
open Verif.Index.IndexSet (keys computeLabels contractIS Key prodInds exists_lab prodInds_lab)
open Verif.Tensor
open Verif.Tensor.Range
open Finset (sum_congr sum_comm mem_range sum_eq_zero sum_eq_single_of_mem range sum_add_distrib)
open Verif.Net (DG DS runSteps dot replaceIndex isReplaceDelta prodVal' contractDiagPartial contractDiagFull IsOK LabOK)
open Verif.QN (norm IsQN)

theorem fluxOf_names {M : Verif.QN.Name → Int} {u : List Verif.QN.Name} {is : IndexSet}
    (h : SectorsOK M u is) {b : Block} (hb : Valid (nb is) b) {q : Verif.QN.QN} (hq : IsQN M q)
    (hqu : ∀ v ∈ q, v.active = true → v.name ∈ u) : ∀ v ∈ fluxOf is b q, v.active = true → v.name ∈ u := by
  induction is generalizing b q with
  | nil => cases hb; exact hqu
  | cons I is ih =>
    simp only [nb, List.map_cons] at hb
    cases hb with
    | cons h1 h2 =>
      rename_i x bs
      have hx : x < I.qns.length := h1
      have hget : I.qns.getD x (Verif.QN.QN.default, 0) = I.qns[x] := by
        rw [List.getD_eq_getElem?_getD, List.getElem?_eq_getElem hx]; rfl
      obtain ⟨hq1, hq2⟩ := h.2 I (by simp) I.qns[x] (List.getElem_mem hx)
      obtain ⟨hs1, hs2⟩ := Verif.QN.C06_scale_val hq1 I.dir
      obtain ⟨ha1, ha2, ha3⟩ := isQN_add_names hq hs1 h.1 hqu (isQN_scale_names hq1 I.dir hq2)
      simp only [fluxOf, hget]
      exact ih ⟨h.1, fun J hJ => h.2 J (by simp [hJ])⟩ h2 ha1 ha3

theorem default_val (M : Verif.QN.Name → Int) (n : Verif.QN.Name) : (Verif.QN.QN.default).val n = 0 := by
  rw [(Verif.QN.WF.default M).val]; rfl

section
variable {K : Type*} [CommRing K] [DecidableEq K]
variable {M : Verif.QN.Name → Int} {u : List Verif.QN.Name} {env : Key → List (Verif.QN.QN × Nat)} {zs : List Nat} {Tis Nis : IndexSet} {d : DG K} {t : QDense K}

omit [DecidableEq K] [CommRing K] in
theorem calcDiv_names {is : IndexSet} (hok : SectorsOK M u is) {d : QDense K}
    (hW : WF is d.offsets d.size) {q : Verif.QN.QN} (h : calcDiv is d = .ok q) : ∀ v ∈ q, v.active = true → v.name ∈ u := by
  unfold calcDiv at h
  cases is with
  | nil => cases h; exact default_names
  | cons I is =>
    cases ho : d.offsets with
    | nil => rw [ho] at h; cases h; exact default_names
    | cons o l =>
      have hv : Valid (nb (I :: is)) o.block := hW.valid o (by rw [ho]; simp)
      rw [ho] at h
      dsimp only at h
      rw [blockQN_ok hv] at h
      cases h
      exact fluxOf_names hok hv (Verif.QN.isQN_default M) (default_names)

theorem qdiagDiv_ok {is : IndexSet} (hok : SectorsOK M u is) (hz : ∀ I ∈ is, szs I = zs) (hzl : 0 < zs.length)
    (hflux : ∀ n < zs.length, ∀ x, norm (M x) (fluxVal is (List.replicate is.length n) x) = norm (M x) (fluxVal is (List.replicate is.length 0) x)) :
    ∃ q, qdiagDiv is = .ok q ∧ IsQN M q ∧ (∀ v ∈ q, v.active = true → v.name ∈ u) ∧
      ∀ n < zs.length, ∀ x, norm (M x) (fluxVal is (List.replicate is.length n) x) = q.val x := by
  have hv0 := valid_rep hz hzl
  obtain ⟨k1, k2⟩ := fluxOf_val hok hv0 (Verif.QN.isQN_default M) (default_names)
  refine ⟨_, blockQN_ok hv0 _, k1, fluxOf_names hok hv0 (Verif.QN.isQN_default M) (default_names), fun n hn x => ?_⟩
  have e := k2 x
  rw [isQN_val_norm k1 x, default_val M, Int.zero_add] at e
  rw [e, hflux n hn x]

omit [DecidableEq K] in
/-- The flux of the block a pair of blocks contributes to. -/
theorem DCtx.flux (h : DCtx M u env zs Tis d t Nis) (hdir : ∀ I ∈ Tis, ∀ J ∈ d.is, I.key = J.key → I.dir = - J.dir) (β : Key → Nat) (x : Verif.QN.Name) :
    fluxVal Nis (blk Nis β) x = fluxVal Tis (blk Tis β) x + fluxVal d.is (blk d.is β) x := by
  unfold blk
  rw [fluxVal_map, fluxVal_map, fluxVal_map]
  set w : Index → Int := fun I => ((I.qns.getD (β I.key) (Verif.QN.QN.default, 0)).1).val x * I.dir with hw
  rw [(h.hN.map w).sum_eq, List.map_append, List.sum_append, sum_filter_split Tis (fun i => i.key ∉ keys d.is) w,
    sum_filter_split d.is (fun i => i.key ∉ keys Tis) w]
  have := sum_opposite h.T.nodup h.D.nodup w (by
    intro I hI J hJ e
    simp only [hw]
    rw [h.T.env I hI, h.D.env J hJ, e, hdir I hI J hJ e]
    ring)
  linarith

omit [DecidableEq K] in
theorem DCtx.goodN (h : DCtx M u env zs Tis d t Nis) : SectorsOK M u Nis ∧ ∀ I ∈ Nis, 0 < I.nblock := by
  refine ⟨⟨h.T.ok.1, fun I hI => ?_⟩, fun I hI => ?_⟩ <;>
  rcases List.mem_append.1 (h.hN.mem_iff.1 hI) with hI | hI
  · exact h.T.ok.2 I (List.mem_filter.1 hI).1
  · exact h.D.ok.2 I (List.mem_filter.1 hI).1
  · exact h.T.ne I (List.mem_filter.1 hI).1
  · exact h.D.ne I (List.mem_filter.1 hI).1

/-- The element of the product at `ρ`: the sum over the diagonal. -/
def diagProd (d : DG K) (Tis : IndexSet) (fT : List Nat → K) (ρ : Key → Nat) : K :=
  ∑ J ∈ range d.length, if ∀ k ∈ keys d.is, k ∉ keys Tis → ρ k = J then
    d.at' J * fT (Tis.map fun I => if I.key ∈ keys d.is then J else ρ I.key) else 0

omit [DecidableEq K] in
theorem blockSum_val (h : DCtx M u env zs Tis d t Nis) {fT : List Nat → K}
    (hfT : ∀ ind, Valid (Tis.map fun I => (I.qns.map (·.2)).sum) ind → getElt t Tis ind = .ok (fT ind)) {β υ ρ : Key → Nat}
    (hb : ∀ I ∈ Nis, β I.key < (szK env I.key).length) (hu : ∀ I ∈ Nis, υ I.key < (szK env I.key).getD (β I.key) 0)
    (hρ : ∀ I ∈ Nis, ρ I.key = ((szK env I.key).take (β I.key)).sum + υ I.key) : blockSum zs Tis d t β υ = diagProd d Tis fT ρ := by
  have mT : ∀ I ∈ Tis, I.key ∉ keys d.is → I ∈ Nis := fun I hI hk =>
    h.hN.mem_iff.2 (List.mem_append.2 (Or.inl (List.mem_filter.2 ⟨hI, by simpa using hk⟩)))
  have mD : ∀ I ∈ d.is, I.key ∉ keys Tis → I ∈ Nis := fun I hI hk =>
    h.hN.mem_iff.2 (List.mem_append.2 (Or.inr (List.mem_filter.2 ⟨hI, by simpa using hk⟩)))
  unfold blockSum diagProd
  rw [h.len, sum_sectors]
  refine sum_congr rfl fun n hn => sum_congr rfl fun i hi => ?_
  have hn' := mem_range.1 hn
  have hi' := mem_range.1 hi
  refine if_congr ⟨fun H k hk hk' => ?_, fun H k hk hk' => ?_⟩ ?_ rfl
  · obtain ⟨I, hI, rfl⟩ := List.mem_map.1 hk
    rw [hρ I (mD I hI hk'), (H _ hk hk').1, (H _ hk hk').2, h.szD hk]
  · obtain ⟨I, hI, rfl⟩ := List.mem_map.1 hk
    have h1 := hb I (mD I hI hk')
    have h2 := hu I (mD I hI hk')
    have h3 := H _ hk hk'
    rw [hρ I (mD I hI hk'), h.szD hk] at h3
    rw [h.szD hk] at h1 h2
    have hbs : ∀ m, bsize I m = zs.getD m 0 := by
      intro m
      have := h.hz I hI
      rw [← this]
      rfl
    exact gl_inj (I := I) (by rw [h.nblock hI]; exact h1) (by rw [hbs]; exact h2) (by rw [h.nblock hI]; exact hn') (by rw [hbs]; exact hi')
      (by unfold gl; rw [h.hz I hI]; exact h3)
  · congr 1
    have hvb : Valid (nb Tis) (blk Tis fun k => if k ∈ keys d.is then n else β k) := by
      rw [valid_blk h.T.sz]
      intro I hI
      by_cases hk : I.key ∈ keys d.is
      · rw [if_pos hk, h.szD hk]; exact hn'
      · rw [if_neg hk]; exact hb I (mT I hI hk)
    have hvu : Valid (bext Tis (blk Tis fun k => if k ∈ keys d.is then n else β k)) (blk Tis fun k => if k ∈ keys d.is then i else υ k) := by
      rw [valid_bext_blk h.T.sz]
      intro I hI
      by_cases hk : I.key ∈ keys d.is
      · rw [if_pos hk, if_pos hk, h.szD hk]; exact hi'
      · rw [if_neg hk, if_neg hk]; exact hu I (mT I hI hk)
    have e1 := getElt_glue (d := t) h.wf hvb hvu
    have e2 := hfT _ (glue_valid hvb hvu)
    rw [e1] at e2
    rw [Res.ok.inj e2, glue_blk h.T.sz]
    congr 1
    refine List.map_congr_left fun I hI => ?_
    by_cases hk : I.key ∈ keys d.is
    · simp only [if_pos hk, h.szD hk]
    · simp only [if_neg hk, hρ I (mT I hI hk)]

omit [DecidableEq K] in
/-- Every position of the result is in a block. -/
theorem DCtx.split (h : DCtx M u env zs Tis d t Nis) {ρ : Key → Nat} (hρ : ∀ I ∈ Nis, ρ I.key < (I.qns.map (·.2)).sum) :
    ∃ β υ : Key → Nat, (∀ I ∈ Nis, β I.key < (szK env I.key).length) ∧ (∀ I ∈ Nis, υ I.key < (szK env I.key).getD (β I.key) 0) ∧
      (∀ I ∈ Nis, ρ I.key = ((szK env I.key).take (β I.key)).sum + υ I.key) ∧ (Nis.map fun I => ρ I.key) = glue Nis (blk Nis β) (blk Nis υ) := by
  classical
  have hx : ∀ k, ∃ b v, k ∈ keys Nis → b < (szK env k).length ∧ v < (szK env k).getD b 0 ∧ ρ k = ((szK env k).take b).sum + v := by
    intro k
    by_cases hk : k ∈ keys Nis
    · obtain ⟨I, hI, rfl⟩ := List.mem_map.1 hk
      obtain ⟨b, v, h1, h2, h3⟩ := exists_gl (szK env I.key) (ρ I.key) (by rw [← h.szN I hI]; exact hρ I hI)
      exact ⟨b, v, fun _ => ⟨h1, h2, h3⟩⟩
    · exact ⟨0, 0, fun h => absurd h hk⟩
  choose β υ hbu using hx
  have hm : ∀ I ∈ Nis, I.key ∈ keys Nis := fun I hI => List.mem_map_of_mem hI
  refine ⟨β, υ, fun I hI => (hbu _ (hm I hI)).1, fun I hI => (hbu _ (hm I hI)).2.1, fun I hI => (hbu _ (hm I hI)).2.2, ?_⟩
  rw [glue_blk h.szN]
  exact List.map_congr_left fun I hI => (hbu _ (hm I hI)).2.2

/-- `blockDiagDense` when the block-sparse tensor keeps an index. -/
theorem blockDiagDense_partial (h : DCtx M u env zs Tis d t Nis) (hdir : ∀ I ∈ Tis, ∀ J ∈ d.is, I.key = J.key → I.dir = - J.dir)
    (hflux : ∀ n < zs.length, ∀ x, norm (M x) (fluxVal d.is (List.replicate d.is.length n) x) = norm (M x) (fluxVal d.is (List.replicate d.is.length 0) x))
    (hF : HasFlux M Tis t) {lab : Key → Int} (hl : LabOK lab d.is Tis)
    (hU : Tis.filter (fun i => decide (i.key ∉ keys d.is)) ≠ []) {fuel : Nat} (hf : t.size < fuel) (hfD : (nb d.is).prod < fuel)
    (hfN : (nb Nis).prod < fuel) (hmax : ((nb Nis).prod : Int) ≤ offMax) {fT : List Nat → K}
    (hfT : ∀ ind, Valid (Tis.map fun I => (I.qns.map (·.2)).sum) ind → getElt t Tis ind = .ok (fT ind)) :
    ∃ C, blockDiagDense fuel d ((keys d.is).map lab) Tis t ((keys Tis).map lab) (Nis.map fun i => (i, lab i.key)) = some (.ok (.sparse Nis C)) ∧
      WF Nis C.offsets C.size ∧ ∀ ρ : Key → Nat, (∀ I ∈ Nis, ρ I.key < (I.qns.map (·.2)).sum) →
        getElt C Nis (Nis.map fun I => ρ I.key) = .ok (diagProd d Tis fT ρ) := by
  have hzl : 0 < zs.length := by
    obtain ⟨I, hI⟩ := List.exists_mem_of_ne_nil _ h.ne
    rw [← h.nblock hI]; exact h.D.ne I hI
  have hTne : Tis ≠ [] := by rintro rfl; exact hU rfl
  obtain ⟨q1, a1, a2, a3, a4⟩ := qdiagDiv_ok h.D.ok h.hz hzl hflux
  obtain ⟨q2, b1, b2, b3⟩ := calcDiv_ok h.T.ok h.wf hTne hF
  have b4 := calcDiv_names h.T.ok h.wf b1
  obtain ⟨q3, q4, _⟩ := isQN_add_names a2 b2 h.T.ok.1 a3 b4
  obtain ⟨src, s1, s2⟩ := cSource_blk (Tis := Tis) (Dis := d.is) Nis fun I hI => h.keyN hI
  have hNne : Nis ≠ [] := by
    rintro e
    have := h.hN.symm
    rw [e] at this
    exact hU (List.append_eq_nil_iff.1 this.eq_nil).1
  obtain ⟨C, c1, c2, c3, c4⟩ := C21_ofDiv (K := K) hNne h.goodN.2 h.goodN.1 q3 fuel hfN hmax
  have hmem : ∀ ao ∈ t.offsets, ∀ n < zs.length, ∀ c, Mt Tis Nis d ao n c → ∃ co ∈ C.offsets, co.block = c := by
    rintro ao hao n hn c ⟨β, e1, e2, rfl⟩
    rw [c4]
    have hv := h.wf.valid ao hao
    rw [e1, valid_blk h.T.sz] at hv
    refine ⟨?_, fun x => ?_⟩
    · unfold blk
      rw [List.forall₂_map_left_iff, List.forall₂_same]
      intro I hI
      have hs := h.szN I hI
      have hlen : I.qns.length = (szK env I.key).length := by rw [← hs]; simp [szs]
      rw [hlen]
      by_cases hk : I.key ∈ keys d.is
      · rw [e2 _ hk, h.szD hk]; exact hn
      · obtain ⟨J, hJ, e⟩ := List.mem_map.1 ((h.keyN hI).resolve_right hk)
        rw [← e]; exact hv J hJ
    · rw [h.flux hdir, q4, blk_rep e2, ← a4 n hn x, ← b3 ao hao x, ← e1, Verif.QN.norm_add_norm_left, Verif.QN.norm_add_norm_right, Int.add_comm]
  obtain ⟨m, m1, m2⟩ := blocks_ok h ⟨hl, s2⟩ hU hf hfD c2 hmem C.data
  refine ⟨{ C with data := m }, ?_, c2, fun ρ hρ => ?_⟩
  · unfold blockDiagDense
    have e1 : (Nis.map fun i => (i, lab i.key)).map (·.1) = Nis := by rw [List.map_map]; simp [Function.comp_def]
    have e2 : (Nis.map fun i => (i, lab i.key)).map (·.2) = (keys Nis).map lab := by unfold keys; rw [List.map_map, List.map_map]; rfl
    have e3 : ((keys Tis).map lab).any (· ≥ 0) = true := by
      obtain ⟨I, hI⟩ := List.exists_mem_of_ne_nil _ hU
      obtain ⟨hI1, hI2⟩ := List.mem_filter.1 hI
      have hk : I.key ∈ keys Tis := List.mem_map_of_mem hI1
      have := (hl.sign I.key (Or.inr hk)).2
      rw [List.any_eq_true]
      refine ⟨lab I.key, List.mem_map_of_mem hk, ?_⟩
      have hnot : ¬ lab I.key < 0 := fun hlt => (by simpa using hI2 : I.key ∉ keys d.is) (this.1 hlt).1
      simpa using hnot
    dsimp only
    rw [e1, e2, a1, b1, s1]
    simp only [Run.lift, Run.bind_ok]
    rw [if_pos e3, c1]
    simp only [Run.bind_ok, m1]
  · obtain ⟨β, υ, h1, h2, h3, h4⟩ := h.split hρ
    have hvb : Valid (nb Nis) (blk Nis β) := (valid_blk h.szN β).2 h1
    have hvu : Valid (bext Nis (blk Nis β)) (blk Nis υ) := (valid_bext_blk h.szN β υ).2 h2
    have mT : ∀ I ∈ Tis, I.key ∉ keys d.is → I ∈ Nis := fun I hI hk =>
      h.hN.mem_iff.2 (List.mem_append.2 (Or.inl (List.mem_filter.2 ⟨hI, by simpa using hk⟩)))
    have hs := blockSum_eq h β υ fun I hI hk => h1 I (mT I hI hk)
    have hval := blockSum_val h hfT h1 h2 h3
    rw [h4, getElt_glue (d := { C with data := m }) c2 hvb hvu, ← hval]
    congr 1
    unfold elem
    by_cases hex : ∃ o ∈ C.offsets, o.block = blk Nis β
    · obtain ⟨o, ho, hob⟩ := hex
      rw [← hob, getBlock_mem (d := { C with data := m }) c2 ho]
      dsimp only
      have := m2 (o, υ) ⟨ho, by rw [hob]; exact hvu⟩
      dsimp only at this
      rw [this, c3, zero_add, hob]
      exact hs
    · rw [getBlock_notMem (d := { C with data := m }) c2 hvb (fun o ho e => hex ⟨o, ho, e⟩)]
      dsimp only
      rw [← hs]
      symm
      apply List.sum_eq_zero
      intro x hx
      obtain ⟨ao, hao, rfl⟩ := List.mem_map.1 hx
      refine sum_eq_zero fun n hn => if_neg fun hM => hex (hmem ao hao n (mem_range.1 hn) _ hM)

/-! ## The block-sparse tensor keeps no index -/

omit [DecidableEq K] in
theorem DCtx.fullN (h : DCtx M u env zs Tis d t Nis) (hU : ∀ I ∈ Tis, I.key ∈ keys d.is) :
    (∀ I ∈ Nis, I ∈ d.is ∧ I.key ∉ keys Tis) ∧ ∀ I ∈ d.is, I.key ∉ keys Tis → I ∈ Nis := by
  refine ⟨fun I hI => ?_, fun I hI hk => h.hN.mem_iff.2 (List.mem_append.2 (Or.inr (List.mem_filter.2 ⟨hI, by simpa using hk⟩)))⟩
  rcases List.mem_append.1 (h.hN.mem_iff.1 hI) with hI | hI
  · obtain ⟨h1, h2⟩ := List.mem_filter.1 hI
    exact absurd (hU I h1) (by simpa using h2)
  · obtain ⟨h1, h2⟩ := List.mem_filter.1 hI
    exact ⟨h1, by simpa using h2⟩

/-- One pair of blocks with diagonal elements. -/
theorem fStep_on (h : DCtx M u env zs Tis d t Nis) {lab : Key → Int} {src : List (Nat ⊕ Nat)} (hl : LCtx Tis Nis d lab src)
    (hU : ∀ I ∈ Tis, I.key ∈ keys d.is) {clen : Nat} (hcl : if Nis = [] then clen = 1 else clen = zs.sum) {ao : BlOf} (hao : ao ∈ t.offsets)
    {n : Nat} (hn : n < zs.length) {β : Key → Nat} (hβ : ao.block = blk Tis β) (hβD : ∀ k ∈ keys d.is, β k = n) (m : Int → K) :
    ∃ m', fStep Tis Nis ((keys d.is).map lab) ((keys Tis).map lab) src d t clen ao m (List.replicate d.is.length n) = some (.ok m') ∧
      ∀ p : Nat × Nat, (p.1 < zs.length ∧ p.2 < zs.getD p.1 0 ∧ (Nis = [] → p = (0, 0))) →
        m' (((zs.take p.1).sum + p.2 : Nat) : Int) = m (((zs.take p.1).sum + p.2 : Nat) : Int) +
          if (blk Nis fun _ => p.1) = blk Nis β then pv zs Tis d t ao n (fun _ => p.2) else 0 := by
  have hz := h.zpos' hn
  have hle := take_add_le hn
  have hv := h.wf.valid ao hao
  have hbd := (h.wf.tile.bounds ao hao).2
  have hrep := blk_rep hβD
  obtain ⟨hN1, hN2⟩ := h.fullN hU
  have dT : (bI (szK env) Tis β).map (·.dim) = bext Tis ao.block := by rw [dims_bI h.T.sz, hβ]
  have hblkc : ∀ υ : Key → Nat, ∀ i, (blk Tis fun k => if k ∈ keys d.is then i else υ k) = blk Tis fun _ => i :=
    fun υ i => blk_congr fun I hI => if_pos (hU I hI)
  set nC := if Nis = [] then 1 else zs.getD n 0 with hnC
  obtain ⟨r, r1, r2, r3⟩ := Verif.Net.full_ok (h.dB_ok hn hβD) (h.tB_ok hao hβ) (lab := lab)
    (by
      refine ⟨?_, ?_⟩
      · have := hl.lab.inj
        simpa only [keys_dB, keys_tB] using this
      · have := hl.lab.sign
        simpa only [keys_dB, keys_tB] using this)
    (by
      intro i hi
      obtain ⟨I, hI, rfl⟩ := List.mem_map.1 hi
      rw [keys_dB]
      exact hU I hI) nC (by
      rw [hnC]
      split
      · exact Or.inl rfl
      · exact Or.inr rfl)
  rw [keys_dB, keys_tB, (h.dB_ok hn hβD).size, show (tB env Tis t ao β).is.map (·.dim) = bext Tis ao.block from dT] at r1
  have hsem : ∀ i, (tB env Tis t ao β).sem.val (fun _ => i) = t.data ((ao.offset + rank (bext Tis ao.block) (blk Tis fun _ => i) : Nat) : Int) := by
    intro i
    have hr : (tB env Tis t ao β).sem.val (fun _ => i) =
      t.data (ao.offset + ((rank ((bI (szK env) Tis β).map (·.dim)) ((bI (szK env) Tis β).map fun I => i) : Nat) : Int)) := rfl
    rw [hr, dT, Nat.cast_add]
    congr 4
    unfold bI blk
    rw [List.map_map]
    rfl
  set q1 := if Nis = [] then 0 else (zs.take n).sum with hq1
  obtain ⟨p1, p2⟩ := fullS_of r1 (starts := List.replicate d.is.length 0) (by simp) (nB' := t.size - ao.offset)
    (by change bdim Tis ao.block ≤ _; unfold bdim at hbd ⊢; omega) (A' := fun J => d.at' ((zs.take n).sum + J))
    (fun J hJ => h.at' hn hJ) (fun x => m (q1 + x))
  have hbnd : (if Nis = [] then Res.ok (0, 1, []) else diagBlockBounds Nis (cBlock src ao.block (List.replicate d.is.length n))) =
      .ok (q1, q1 + nC, if Nis = [] then [] else List.replicate Nis.length 0) := by
    by_cases hNe : Nis = []
    · simp only [hq1, hnC, if_pos hNe]
    · have hc : cBlock src ao.block (List.replicate d.is.length n) = List.replicate Nis.length n := by
        rw [hβ, ← hrep, hl.src, List.eq_replicate_iff]
        refine ⟨by simp [blk], fun x hx => ?_⟩
        obtain ⟨I, hI, rfl⟩ := List.mem_map.1 hx
        exact hβD _ (List.mem_map_of_mem (hN1 I hI).1)
      simp only [hq1, hnC, if_neg hNe]
      rw [hc, bounds_on hNe (fun I hI => h.hz I (hN1 I hI).1) hn]
  have hnC0 : 0 < nC := by rw [hnC]; split <;> omega
  have hclen : ¬ (clen < q1 + nC) := by
    rw [hnC, hq1]
    split at hcl
    · rename_i e; rw [if_pos e, if_pos e]; omega
    · rename_i e; rw [if_neg e, if_neg e]; omega
  refine ⟨fun x => m x + r (x - q1), ?_, fun p hp => ?_⟩
  · unfold fStep
    rw [bounds_on h.ne h.hz hn]
    simp only [Run.lift, Run.bind_ok]
    rw [if_neg (by omega), if_neg (by
      rintro ⟨e1, e2⟩
      rcases h.store with hs | hs
      · simp [hs] at e1
      · have := h.len; omega), hbnd, blockExtents_ok hv]
    simp only [Run.bind_ok]
    rw [if_neg (by omega), Nat.add_sub_cancel_left, Nat.add_sub_cancel_left]
    rw [show (dB env zs d n).length = zs.getD n 0 from rfl] at p1
    have p1' : contractDiagFullS (zs.getD n 0) (fun J => d.at' ((zs.take n).sum + J)) ((keys d.is).map lab) (List.replicate d.is.length 0)
        (init (bext Tis ao.block)) (t.size - ao.offset) (fun x => t.data (ao.offset + x)) ((keys Tis).map lab) nC (fun x => m (q1 + x)) = _ := p1
    rw [p1', Run.bind_ok]
    congr 3
    funext x
    dsimp only
    rw [add_sub_cancel]
  · dsimp only
    obtain ⟨hp1, hp2, hp3⟩ := hp
    by_cases hNe : Nis = []
    · have hp := hp3 hNe
      subst hp
      rw [if_pos (by simp [hNe, blk])]
      congr 1
      have h0 : (((zs.take (0, 0).1).sum + (0, 0).2 : Nat) : Int) - (q1 : Int) = 0 := by simp [hq1, hNe]
      rw [h0, r2 (by rw [hnC, if_pos hNe])]
      unfold pv
      change ∑ J ∈ range (zs.getD n 0), _ = _
      refine sum_congr rfl fun i hi => ?_
      rw [if_pos, hsem, h.at' hn (mem_range.1 hi), hblkc]
      intro k hk hk'
      obtain ⟨I, hI, rfl⟩ := List.mem_map.1 hk
      have := hN2 I hI hk'
      rw [hNe] at this
      simp at this
    · have hq : q1 = (zs.take n).sum := by rw [hq1, if_neg hNe]
      have hnc : nC = zs.getD n 0 := by rw [hnC, if_neg hNe]
      obtain ⟨I0, hI0⟩ := List.exists_mem_of_ne_nil _ hNe
      have hk0 : I0.key ∈ keys d.is := List.mem_map_of_mem (hN1 I0 hI0).1
      by_cases hpn : p.1 = n
      · rw [if_pos (blk_congr fun I hI => by rw [hpn, hβD _ (List.mem_map_of_mem (hN1 I hI).1)])]
        congr 1
        have h0 : (((zs.take p.1).sum + p.2 : Nat) : Int) - (q1 : Int) = (p.2 : Int) := by rw [hq, hpn]; push_cast; ring
        rw [h0]
        rw [hpn] at hp2
        have hr : r (p.2 : Int) = (dB env zs d n).at' p.2 * (tB env Tis t ao β).sem.val fun _ => p.2 := by
          by_cases h1 : nC = 1
          · have hp0 : p.2 = 0 := by omega
            rw [hp0, Nat.cast_zero, r2 h1]
            change ∑ J ∈ range (zs.getD n 0), _ = _
            rw [← hnc, h1, Finset.sum_range_one]
          · exact r3 h1 p.2 hp2
        rw [hr, hsem]
        unfold pv
        rw [sum_eq_single_of_mem p.2 (mem_range.2 hp2) (fun i _ hne => if_neg fun H => hne (H _ hk0 (hN1 I0 hI0).2).symm), if_pos (fun _ _ _ => rfl), h.at' hn hp2, hblkc]
      · have hne : ¬ (blk Nis fun _ => p.1) = blk Nis β := fun e => hpn ((blk_inj e _ (List.mem_map_of_mem hI0)).trans (hβD _ hk0))
        rw [if_neg hne, add_zero, p2, add_zero]
        rintro ⟨g1, g2⟩
        rw [hq] at g1 g2
        rw [hnc] at g2
        rcases Nat.lt_or_gt_of_ne hpn with hlt | hlt
        · have := take_sum_mono (zs := zs) (n := p.1) (n' := n) hlt hp1
          omega
        · have := take_sum_mono (zs := zs) (n := n) (n' := p.1) hlt hn
          omega

/-- `blockDiagDense` when the block-sparse tensor keeps no index. -/
theorem blockDiagDense_full (h : DCtx M u env zs Tis d t Nis)
    (hflux : ∀ n < zs.length, ∀ x, norm (M x) (fluxVal d.is (List.replicate d.is.length n) x) = norm (M x) (fluxVal d.is (List.replicate d.is.length 0) x))
    (hF : HasFlux M Tis t) (hTne : Tis ≠ []) (hdim : ∀ I ∈ d.is, I.dim = zs.sum) {lab : Key → Int} (hl : LabOK lab d.is Tis)
    (hU : ∀ I ∈ Tis, I.key ∈ keys d.is) {fuel : Nat} (hfD : (nb d.is).prod < fuel) {fT : List Nat → K}
    (hfT : ∀ ind, Valid (Tis.map fun I => (I.qns.map (·.2)).sum) ind → getElt t Tis ind = .ok (fT ind)) :
    ∃ R, blockDiagDense fuel d ((keys d.is).map lab) Tis t ((keys Tis).map lab) (Nis.map fun i => (i, lab i.key)) = some (.ok R) ∧ R.is = Nis ∧
      ∀ ρ : Key → Nat, (∀ I ∈ Nis, ρ I.key < (I.qns.map (·.2)).sum) →
        R.getElt (Nis.map fun I => ρ I.key) = .ok (diagProd d Tis fT ρ) := by
  have hzl : 0 < zs.length := by
    obtain ⟨I, hI⟩ := List.exists_mem_of_ne_nil _ h.ne
    rw [← h.nblock hI]; exact h.D.ne I hI
  obtain ⟨hN1, hN2⟩ := h.fullN hU
  obtain ⟨q1, a1, a2, a3, a4⟩ := qdiagDiv_ok h.D.ok h.hz hzl hflux
  obtain ⟨q2, b1, b2, b3⟩ := calcDiv_ok h.T.ok h.wf hTne hF
  obtain ⟨src, s1, s2⟩ := cSource_blk (Tis := Tis) (Dis := d.is) Nis fun I hI => h.keyN hI
  have hdl : ∃ clen, diagLen Nis = .ok clen ∧ if Nis = [] then clen = 1 else clen = zs.sum := by
    cases hNe : Nis with
    | nil => exact ⟨1, rfl, by simp⟩
    | cons I N =>
      have hI : ∀ J ∈ I :: N, J.dim = zs.sum := fun J hJ => hdim J (hN1 J (by rw [hNe]; exact hJ)).1
      refine ⟨zs.sum, ?_, by simp⟩
      unfold diagLen
      dsimp only
      rw [if_neg, hI I (by simp)]
      simp only [List.any_eq_true, bne_iff_ne, ne_eq, not_exists, not_and, not_not]
      intro J hJ
      rw [hI I (by simp), hI J (by simp [hJ])]
  obtain ⟨clen, l1, l2⟩ := hdl
  classical
  obtain ⟨m, m1, m2⟩ := runFold_add (K := K) (f := tStep fuel Tis d.is (fStep Tis Nis ((keys d.is).map lab) ((keys Tis).map lab) src d t clen))
    (addr := fun p : Nat × Nat => (((zs.take p.1).sum + p.2 : Nat) : Int))
    (Q := fun p => p.1 < zs.length ∧ p.2 < zs.getD p.1 0 ∧ (Nis = [] → p = (0, 0)))
    (v := fun ao p => ∑ n ∈ range zs.length, if Mt Tis Nis d ao n (blk Nis fun _ => p.1) then pv zs Tis d t ao n (fun _ => p.2) else 0) t.offsets
    (fun ao hao m => tStep_gen h hfD (f := fStep Tis Nis ((keys d.is).map lab) ((keys Tis).map lab) src d t clen)
      (cb := fun p : Nat × Nat => blk Nis fun _ => p.1) (uv := fun p _ => p.2) hao
      (fun n hn β hβ hβD m => fStep_on h ⟨hl, s2⟩ hU l2 hao hn hβ hβD m)
      (fun b x y ss e1 e2 m => by
        unfold fStep
        rw [e1]
        simp only [Run.lift, Run.bind_ok]
        rw [if_pos e2]) m) (fun _ => 0)
  refine ⟨.diag ⟨Nis, (List.range clen).map fun (J : Nat) => m J, 0, clen⟩, ?_, rfl, fun ρ hρ => ?_⟩
  · unfold blockDiagDense
    have e1 : (Nis.map fun i => (i, lab i.key)).map (·.1) = Nis := by rw [List.map_map]; simp [Function.comp_def]
    have e3 : ¬ ((keys Tis).map lab).any (· ≥ 0) = true := by
      rw [List.any_eq_true]
      rintro ⟨x, hx, hx'⟩
      obtain ⟨k, hk, rfl⟩ := List.mem_map.1 hx
      obtain ⟨I, hI, rfl⟩ := List.mem_map.1 hk
      have := (hl.sign I.key (Or.inr hk)).2.2 ⟨hU I hI, hk⟩
      have hx'' : lab I.key ≥ 0 := by simpa using hx'
      omega
    dsimp only
    rw [e1, a1, b1, s1]
    simp only [Run.lift, Run.bind_ok]
    rw [if_neg e3, l1]
    simp only [Run.bind_ok, m1]
  · have key : ∀ n i, n < zs.length → i < zs.getD n 0 → (Nis = [] → n = 0 ∧ i = 0) → (∀ I ∈ Nis, ρ I.key = (zs.take n).sum + i) →
        m (((zs.take n).sum + i : Nat) : Int) = diagProd d Tis fT ρ := by
      intro n i hn hi h0 hr
      have := m2 (n, i) ⟨hn, hi, fun e => by rw [(h0 e).1, (h0 e).2]⟩
      rw [this, zero_add, blockSum_eq h (fun _ => n) (fun _ => i) (fun I hI hk => absurd (hU I hI) hk)]
      exact blockSum_val h hfT (fun I hI => by rw [h.szD (List.mem_map_of_mem (hN1 I hI).1)]; exact hn)
        (fun I hI => by rw [h.szD (List.mem_map_of_mem (hN1 I hI).1)]; exact hi)
        (fun I hI => by rw [h.szD (List.mem_map_of_mem (hN1 I hI).1)]; exact hr I hI)
    unfold QT.getElt
    by_cases hNe : Nis = []
    · rw [if_pos hNe] at l2
      subst l2
      dsimp only
      rw [if_pos hNe]
      have := key 0 0 hzl (h.zpos' hzl) (fun _ => ⟨rfl, rfl⟩) (by simp [hNe])
      rw [← this]
      rfl
    · rw [if_neg hNe] at l2
      subst l2
      dsimp only
      rw [if_neg hNe]
      obtain ⟨I0, N, rfl⟩ := List.exists_cons_of_ne_nil hNe
      have hpos : 0 < zs.sum := by have := take_add_le hzl; have := h.zpos' hzl; omega
      have hsz : ∀ I ∈ I0 :: N, ρ I.key < zs.sum := by
        intro I hI
        have := hρ I hI
        have e : I.qns.map (·.2) = zs := h.hz I (hN1 I hI).1
        rwa [e] at this
      unfold DG.getElt
      dsimp only
      by_cases hall : ∀ I ∈ I0 :: N, ρ I.key = ρ I0.key
      · rw [if_neg]
        · rw [if_neg (by simp; omega)]
          have hlt := hsz I0 (by simp)
          obtain ⟨b, v, g1, g2, g3⟩ := exists_gl zs (ρ I0.key) hlt
          have := key b v g1 g2 (fun e => by simp at e) (fun I hI => by rw [hall I hI, g3])
          rw [← this, ← g3]
          simp [hlt]
        · simp only [List.map_cons, List.headD_cons, List.any_eq_true, bne_iff_ne, ne_eq, not_exists, not_and, not_not]
          intro x hx
          rcases List.mem_cons.1 hx with rfl | hx
          · rfl
          · obtain ⟨I, hI, rfl⟩ := List.mem_map.1 hx
            exact hall I (by simp [hI])
      · rw [if_pos]
        · congr 1
          symm
          unfold diagProd
          refine sum_eq_zero fun J _ => if_neg fun H => hall fun I hI => ?_
          rw [H _ (List.mem_map_of_mem (hN1 I hI).1) (hN1 I hI).2, H _ (List.mem_map_of_mem (hN1 I0 (by simp)).1) (hN1 I0 (by simp)).2]
        · push Not at hall
          obtain ⟨I, hI, hne⟩ := hall
          simp only [List.map_cons, List.headD_cons, List.any_eq_true, bne_iff_ne, ne_eq]
          refine ⟨ρ I.key, ?_, hne⟩
          have : ρ I.key ∈ (I0 :: N).map fun I => ρ I.key := List.mem_map.2 ⟨I, hI, rfl⟩
          exact this

/-! ## A delta replaces an index -/

theorem replace_shape {lab : Key → Int} (hl : LabOK lab d.is Tis) (hr : isReplaceDelta d ((keys d.is).map lab) = true) :
    ∃ x y : Index, x.key ∈ keys Tis ∧ y.key ∉ keys Tis ∧ (∀ i, i ∈ d.is ↔ i = x ∨ i = y) ∧ (∀ J, d.at' J = 1) ∧
      replaceIndex Tis ((keys Tis).map lab) d.is ((keys d.is).map lab) = Tis.map fun i => if i.key = x.key then y else i := by
  obtain ⟨a, b, hab⟩ : ∃ a b, d.is = [a, b] := by
    unfold isReplaceDelta at hr
    split at hr
    · rename_i a b _ _ h _; exact ⟨a, b, h⟩
    · simp at hr
  have hr' : d.store.isEmpty = true ∧ d.val = 1 ∧ a.dim = b.dim ∧ decide (lab a.key < 0) ≠ decide (lab b.key < 0) := by
    unfold isReplaceDelta at hr
    simp only [hab, keys, List.map_cons, List.map_nil, Bool.and_eq_true, beq_iff_eq, bne_iff_ne] at hr
    tauto
  obtain ⟨hst, hv1, hdim, hsg⟩ := hr'
  have hone : ∀ J, d.at' J = 1 := by intro J; unfold DG.at'; rw [if_pos hst, hv1]
  have kt : ∀ i, i ∈ Tis → i.key ∈ keys Tis := fun i hi => List.mem_map_of_mem hi
  have hka : a.key ∈ keys d.is := by simp [hab, keys]
  have hkb : b.key ∈ keys d.is := by simp [hab, keys]
  have hsa := (hl.sign a.key (Or.inl hka))
  have hsb := (hl.sign b.key (Or.inl hkb))
  have zl : Tis.zip ((keys Tis).map lab) = Tis.map fun i => (i, lab i.key) := by
    generalize Tis = X
    induction X with
    | nil => rfl
    | cons i X ih => simp only [keys, List.map_cons, List.zip_cons_cons] at ih ⊢; rw [ih]
  have hneg : ∀ i ∈ Tis, lab i.key < 0 ↔ i.key = a.key ∨ i.key = b.key := by
    intro i hi
    rw [(hl.sign i.key (Or.inr (kt i hi))).2]
    simp [hab, keys]
    intro _; exact ⟨i, hi, rfl⟩
  by_cases ha : lab a.key < 0
  · have hb : ¬ lab b.key < 0 := by
      intro hb; apply hsg; simp [ha, hb]
    have hbt : b.key ∉ keys Tis := fun h => hb (hsb.2.2 ⟨hkb, h⟩)
    refine ⟨a, b, (hsa.2.1 ha).2, hbt, by intro i; rw [hab]; simp, hone, ?_⟩
    unfold replaceIndex
    rw [zl, List.map_map]
    apply List.map_congr_left
    intro i hi
    simp only [Function.comp, hab, keys, List.map_cons, List.headD_cons]
    have hib : i.key ≠ b.key := fun e => hbt (e ▸ kt i hi)
    by_cases hia : i.key = a.key
    · rw [if_pos ((hneg i hi).2 (Or.inl hia)), if_neg (by omega), if_pos hia]; rfl
    · rw [if_neg (fun h => ((hneg i hi).1 h).elim hia hib), if_neg hia]
  · have hb : lab b.key < 0 := by
      by_contra hb; apply hsg; simp [ha, hb]
    have hat : a.key ∉ keys Tis := fun h => ha (hsa.2.2 ⟨hka, h⟩)
    refine ⟨b, a, (hsb.2.1 hb).2, hat, by intro i; rw [hab]; simp [or_comm], hone, ?_⟩
    unfold replaceIndex
    rw [zl, List.map_map]
    apply List.map_congr_left
    intro i hi
    simp only [Function.comp, hab, keys, List.map_cons, List.headD_cons]
    have hia : i.key ≠ a.key := fun e => hat (e ▸ kt i hi)
    by_cases hib : i.key = b.key
    · rw [if_pos ((hneg i hi).2 (Or.inr hib)), if_pos (by omega), if_pos hib]; rfl
    · rw [if_neg (fun h => ((hneg i hi).1 h).elim hia hib), if_neg hib]

omit [DecidableEq K] in
/-- Elements depend only on the sizes of the sectors. -/
theorem getElt_szs {is is' : IndexSet} (he : is.map szs = is'.map szs) (h : WF is t.offsets t.size) {ind : List Nat} (hv : Valid (dims is) ind) :
    WF is' t.offsets t.size ∧ getElt t is' ind = getElt t is ind := by
  have hnb' : ∀ X : IndexSet, nb X = (X.map szs).map List.length := by
    intro X; unfold nb; rw [List.map_map]; exact List.map_congr_left fun I _ => (szs_length I).symm
  have hnb : nb is' = nb is := by rw [hnb', hnb', he]
  have hbx : ∀ b, bext is' b = bext is b := by
    intro b
    have : ∀ X : IndexSet, bext X b = List.zipWith (fun s x => s.getD x 0) (X.map szs) b := by
      intro X; unfold bext; rw [List.zipWith_map_left]; rfl
    rw [this, this, he]
  have hgl : ∀ b u, glue is' b u = glue is b u := by
    have : ∀ (X Y : IndexSet), X.map szs = Y.map szs → ∀ b u, glue X b u = glue Y b u := by
      intro X
      induction X with
      | nil =>
        intro Y e b u
        have : Y = [] := List.map_eq_nil_iff.1 e.symm
        rw [this]
      | cons I X ih =>
        intro Y e b u
        cases Y with
        | nil => simp at e
        | cons J Y =>
          simp only [List.map_cons, List.cons.injEq] at e
          cases b with
          | nil => rfl
          | cons x b =>
            cases u with
            | nil => rfl
            | cons y u => simp only [glue, gl, e.1, ih Y e.2]
    exact this _ _ he.symm
  have hT : ∀ (l : List BlOf) (s e : Nat), Tile is l s e → Tile is' l s e := by
    intro l
    induction l with
    | nil => intro s e h; exact h
    | cons o l ih =>
      intro s e h
      refine ⟨h.1, ?_⟩
      have : bdim is' o.block = bdim is o.block := by unfold bdim; rw [hbx]
      rw [this]
      exact ih _ _ h.2
  have hW : WF is' t.offsets t.size := ⟨h.sorted, by rw [hnb]; exact h.valid, hT _ _ _ h.tile⟩
  refine ⟨hW, ?_⟩
  obtain ⟨b, v, g1, g2, rfl⟩ := exists_glue hv
  rw [getElt_glue h g1 g2, ← hgl, getElt_glue hW (by rw [hnb]; exact g1) (by rw [hbx]; exact g2)]
  unfold elem
  rw [hbx]

theorem replace_val (h : DCtx M u env zs Tis d t Nis) {lab : Key → Int} (hl : LabOK lab d.is Tis) (hr : isReplaceDelta d ((keys d.is).map lab) = true)
    {fT : List Nat → K} (hfT : ∀ ind, Valid (Tis.map fun I => (I.qns.map (·.2)).sum) ind → getElt t Tis ind = .ok (fT ind)) :
    ∃ R, replaceIndex Tis ((keys Tis).map lab) d.is ((keys d.is).map lab) = R ∧ R.Perm Nis ∧
      ∀ ρ : Key → Nat, (∀ I ∈ Nis, ρ I.key < (I.qns.map (·.2)).sum) → getElt t R (R.map fun I => ρ I.key) = .ok (diagProd d Tis fT ρ) := by
  obtain ⟨x, y, hx, hy, hmem, hone, hrep⟩ := replace_shape hl hr
  have kt : ∀ i, i ∈ Tis → i.key ∈ keys Tis := fun i hi => List.mem_map_of_mem hi
  have hxd : x ∈ d.is := (hmem x).2 (Or.inl rfl)
  have hyd : y ∈ d.is := (hmem y).2 (Or.inr rfl)
  have hkd : ∀ k, k ∈ keys d.is ↔ k = x.key ∨ k = y.key := by
    intro k
    simp only [keys, List.mem_map]
    constructor
    · rintro ⟨i, hi, rfl⟩
      rcases (hmem i).1 hi with rfl | rfl <;> simp
    · rintro (rfl | rfl)
      · exact ⟨x, hxd, rfl⟩
      · exact ⟨y, hyd, rfl⟩
  have hty : ∀ i ∈ Tis, i.key ≠ y.key := fun i hi e => hy (e ▸ kt i hi)
  set R := Tis.map fun i => if i.key = x.key then y else i with hR
  have mR : ∀ I, I ∈ R ↔ (I ∈ Tis ∧ I.key ∉ keys d.is) ∨ (I ∈ d.is ∧ I.key ∉ keys Tis) := by
    intro I
    rw [hR, List.mem_map]
    constructor
    · rintro ⟨i, hi, rfl⟩
      split
      · exact Or.inr ⟨hyd, hy⟩
      · rename_i e
        exact Or.inl ⟨hi, fun h' => ((hkd _).1 h').elim e (hty i hi)⟩
    · rintro (⟨h1, h2⟩ | ⟨h1, h2⟩)
      · exact ⟨I, h1, if_neg fun e => h2 ((hkd _).2 (Or.inl e))⟩
      · rcases (hmem I).1 h1 with rfl | rfl
        · exact absurd hx h2
        · obtain ⟨i, hi, e⟩ := List.mem_map.1 hx
          exact ⟨i, hi, if_pos e⟩
  have mN : ∀ I, I ∈ Nis ↔ I ∈ R := by
    intro I
    rw [mR, h.hN.mem_iff, List.mem_append, List.mem_filter, List.mem_filter, decide_eq_true_eq, decide_eq_true_eq]
  have hTn : Tis.Nodup := List.Nodup.of_map _ h.T.nodup
  have hDn : d.is.Nodup := List.Nodup.of_map _ h.D.nodup
  have hRn : R.Nodup := by
    refine hTn.map_on ?_
    intro i hi j hj e
    split at e <;> split at e
    · rename_i e1 e2
      exact List.inj_on_of_nodup_map h.T.nodup hi hj (e1.trans e2.symm)
    · exact absurd (congrArg Index.key e).symm (hty j hj)
    · exact absurd (congrArg Index.key e) (hty i hi)
    · exact e
  have hNn : Nis.Nodup := by
    rw [h.hN.nodup_iff, List.nodup_append]
    refine ⟨hTn.filter _, hDn.filter _, ?_⟩
    intro a ha b hb e
    subst e
    have := (List.mem_filter.1 hb).2
    exact (by simpa using this : a.key ∉ keys Tis) (kt a (List.mem_filter.1 ha).1)
  refine ⟨R, hrep, (List.perm_ext_iff_of_nodup hRn hNn).2 fun I => (mN I).symm, fun ρ hρ => ?_⟩
  have hyN : y ∈ Nis := (mN y).2 ((mR y).2 (Or.inr ⟨hyd, hy⟩))
  have hJ : ρ y.key < d.length := by
    have := hρ y hyN
    have e : y.qns.map (·.2) = zs := h.hz y hyd
    rw [e] at this
    rw [h.len]; exact this
  have hvals : R.map (fun I => ρ I.key) = Tis.map fun I => if I.key ∈ keys d.is then ρ y.key else ρ I.key := by
    rw [hR, List.map_map]
    apply List.map_congr_left
    intro i hi
    simp only [Function.comp]
    by_cases e : i.key = x.key
    · rw [if_pos e, if_pos ((hkd _).2 (Or.inl e))]
    · rw [if_neg e, if_neg fun h => ((hkd _).1 h).elim e (hty i hi)]
  have hsz : Tis.map szs = R.map szs := by
    rw [hR, List.map_map]
    apply List.map_congr_left
    intro i hi
    simp only [Function.comp]
    split
    · rename_i e
      rw [h.T.sz i hi, e, ← h.D.sz x hxd, h.hz x hxd, h.hz y hyd]
    · rfl
  have hv : Valid (dims Tis) (Tis.map fun I => if I.key ∈ keys d.is then ρ y.key else ρ I.key) := by
    have hdR : dims R = dims Tis := by
      have : ∀ X : IndexSet, dims X = (X.map szs).map List.sum := by intro X; unfold dims; rw [List.map_map]; rfl
      rw [this, this, hsz]
    rw [← hvals, ← hdR]
    unfold dims Valid
    rw [List.forall₂_map_left_iff, List.forall₂_map_right_iff, List.forall₂_same]
    intro I hI
    exact hρ I ((mN I).2 hI)
  rw [hvals, (getElt_szs hsz h.wf hv).2, hfT _ hv]
  congr 1
  unfold diagProd
  rw [sum_eq_single_of_mem (ρ y.key) (mem_range.2 hJ), if_pos, hone, one_mul]
  · intro k hk hkt
    rcases (hkd k).1 hk with rfl | rfl
    · exact absurd hx hkt
    · rfl
  · intro J' _ hne
    exact if_neg fun H => hne (H y.key ((hkd _).2 (Or.inr rfl)) hy).symm

end

end Verif.QDense
