import Verif.Decomp.Hermitian
import Verif.Decomp.SvdMain

/-!
# C78: what the eigenvalue decomposition of a matrix with quantum numbers returns
-/

namespace Verif.Svd

open Verif.Index (Index IndexSet)
open Verif.QDense
open Verif.Decomp (Opts)
open Verif.Tensor
open Verif.TagSet (TagSet)
open Verif.QN (IsQN norm)

variable {R K : Type*}

/-! ## The loop which fills the storages is that of `svd` without the last factor -/

section
variable [Field R] [LinearOrder R] [CommRing K] [StarRing K] [Algebra R K]

/-- The kept block as one of a singular value decomposition, the last factor being the conjugate of the first one. -/
def KeptH.full (k : KeptH R K) : Kept R K := ⟨k.i1, k.i1, k.U, k.d, fun i j => star (k.U i j)⟩

theorem dag_dir {I : Index} (h : I.dir = 1 ∨ I.dir = -1) : I.dag.dir = - I.dir := by rcases h with h | h <;> simp [Index.dag, h]

theorem putDiag_eq (L : Index) (pd : Int) (D : DSto R) (n : Nat) (d : List R) : putDiag (L.prime pd) L.dag D n d = putDiag L L D n d := by
  have h1 : ∀ b, sectorStart (L.prime pd) b = sectorStart L b := fun b => by
    induction b with
    | zero => rfl
    | succ b ih => rw [sectorStart, sectorStart, ih]; rfl
  have h2 : ∀ b, sectorStart L.dag b = sectorStart L b := fun b => by
    induction b with
    | zero => rfl
    | succ b ih => rw [sectorStart, sectorStart, ih]; rfl
  unfold putDiag
  simp only [boundsLoop, h1, h2]
  rfl

theorem foldH {aiD L : Index} (pd : Int) (ks : List (KeptH R K)) (n : Nat) (s s' : Asm R K)
    (h : Res.foldM (asmStep aiD aiD L L) s ((ks.map KeptH.full).zipIdx n) = .ok s') :
    Res.foldM (asmStepH aiD L pd) (s.U, s.D) (ks.zipIdx n) = .ok (s'.U, s'.D) := by
  induction ks generalizing n s with
  | nil =>
    simp only [List.map_nil, List.zipIdx_nil, Res.foldM] at h ⊢
    cases h
    rfl
  | cons k ks ih =>
    simp only [List.map_cons, List.zipIdx_cons, Res.foldM] at h ⊢
    rw [Res.bind_eq_ok] at h
    obtain ⟨s1, h1, h2⟩ := h
    unfold asmStep at h1
    simp only [Res.bind_eq_ok] at h1
    obtain ⟨U, u1, D, d1, V, _, e⟩ := h1
    cases e
    have d2 : putDiag (L.prime pd) L.dag s.D n k.d = .ok D := (putDiag_eq L pd s.D n k.d).trans d1
    have u2 : putBlock aiD L s.U k.i1 n k.U = .ok U := u1
    have : asmStepH aiD L pd (s.U, s.D) (k, n) = .ok (U, D) := by
      unfold asmStepH
      dsimp only
      rw [u2, Res.bind_ok, d2, Res.bind_ok]
    rw [this, Res.bind_ok]
    exact ih (n + 1) ⟨U, D, V⟩ h2

theorem assembleH_of {fuel id : Nat} {t : TagSet} {ai : Index} {pd : Int} {te : R} {first : Nat} {ks : List (KeptH R K)} (hne : ks ≠ []) {out : Out R K}
    (h : assemble fuel id id t t ai.dag ai.dag te (ks.map KeptH.full) = some (.ok out)) :
    assembleH fuel id t ai pd te first ks = some (.ok ⟨out.L, out.s.U, out.s.D, out.truncerr⟩) := by
  unfold assemble at h
  unfold assembleH
  rw [if_neg hne]
  have e1 : ((ks.map KeptH.full).map fun k => (k.i1, k.d.length)) = ks.map fun k => (k.i1, k.d.length) := by rw [List.map_map]; rfl
  have e2 : ((ks.map KeptH.full).map fun k => (k.i2, k.d.length)) = ks.map fun k => (k.i1, k.d.length) := by rw [List.map_map]; rfl
  rw [e1, e2] at h
  have e3 : ∀ ps, sectors ai.dag ps = sectors ai ps := by
    intro ps
    induction ps with
    | nil => rfl
    | cons p ps ih => rw [sectors, sectors, ih]; rfl
  rw [e3] at h
  cases hq : sectors ai (ks.map fun k => (k.i1, k.d.length)) with
  | throw => rw [hq] at h; simp at h
  | ub => rw [hq] at h; simp at h
  | ok q =>
    rw [hq] at h
    dsimp only at h ⊢
    set L := newIndex id ai.dag.dir t q
    cases hU : ofDiv (K := K) fuel [ai.dag, L.dag] Verif.QN.QN.default with
    | none => rw [hU] at h; simp [Run.bind] at h
    | some r =>
      rw [hU] at h
      cases r with
      | throw => simp [Run.bind] at h
      | ub => simp [Run.bind] at h
      | ok U =>
        simp only [Run.bind, ne_eq, not_true_eq_false, if_false] at h ⊢
        cases hf : Res.foldM (asmStep ai.dag ai.dag L L) (⟨U, ⟨L.dim, fun _ => 0⟩, U⟩ : Asm R K) (ks.map KeptH.full).zipIdx with
        | throw => rw [hf] at h; simp [Res.map] at h
        | ub => rw [hf] at h; simp [Res.map] at h
        | ok s =>
          rw [hf] at h
          simp only [Res.map, Option.some.injEq, Res.ok.injEq] at h
          subst h
          have := foldH (aiD := ai.dag) (L := L) pd ks 0 ⟨U, ⟨L.dim, fun _ => 0⟩, U⟩ s hf
          dsimp only at this
          rw [this]
          rfl

/-! ## The theorem -/

/-- `F` is an eigenvalue decomposition of the `n` by `n` matrix `M`: `M = U d U†` with `n` orthonormal columns in `U`, the real values in decreasing order. -/
structure IsHerm (n : Nat) (M : Nat → Nat → K) (F : HFac R K) : Prop where
  len : F.d.length = n
  eq : ∀ i < n, ∀ j < n, M i j = ∑ k ∈ Finset.range n, F.U i k * algebraMap R K (F.d.getD k 0) * star (F.U j k)
  uu : ∀ k < n, ∀ k' < n, ∑ i ∈ Finset.range n, star (F.U i k) * F.U i k' = if k = k' then 1 else 0
  desc : F.d.Pairwise (· ≥ ·)

/-- The columns of `U` are eigenvectors. -/
theorem IsHerm.eigen {n : Nat} {M : Nat → Nat → K} {F : HFac R K} (h : IsHerm n M F) {i k : Nat} (hi : i < n) (hk : k < n) :
    ∑ j ∈ Finset.range n, M i j * F.U j k = algebraMap R K (F.d.getD k 0) * F.U i k := by
  have e1 : ∀ j ∈ Finset.range n, M i j * F.U j k = ∑ k' ∈ Finset.range n, F.U i k' * algebraMap R K (F.d.getD k' 0) * (star (F.U j k') * F.U j k) := by
    intro j hj
    rw [h.eq i hi j (Finset.mem_range.1 hj), Finset.sum_mul]
    exact Finset.sum_congr rfl fun k' _ => by ring
  rw [Finset.sum_congr rfl e1, Finset.sum_comm]
  have e2 : ∀ k' ∈ Finset.range n, ∑ j ∈ Finset.range n, F.U i k' * algebraMap R K (F.d.getD k' 0) * (star (F.U j k') * F.U j k) =
      if k' = k then F.U i k' * algebraMap R K (F.d.getD k' 0) else 0 := by
    intro k' hk'
    rw [← Finset.mul_sum, h.uu k' (Finset.mem_range.1 hk') k hk]
    split <;> simp
  rw [Finset.sum_congr rfl e2, Finset.sum_ite_eq' (Finset.range n) k, if_pos (Finset.mem_range.2 hk), mul_comm]

/-- What a decomposition of the hermitian matrix `el` (rows `ai`) is, truncated or not. `Ue`, `De` are the elements which are read from the two tensors. -/
structure Diagonalizes (M : Verif.QN.Name → Int) (ai : Index) (pd : Int) (el : Nat → Nat → K) (out : OutH R K) (Ue : Nat → Nat → K) (De : Nat → R) : Prop where
  /-- Reading an element of `U` with indices `(dag(ai),dag(L))`. -/
  readU : ∀ i < ai.dim, ∀ l < out.L.dim, getElt out.U [ai.dag, out.L.dag] [i, l] = .ok (Ue i l)
  /-- `D` is diagonal. -/
  readD : ∀ l < out.L.dim, ∀ l' < out.L.dim, out.D.elt l l' = .ok (if l = l' then De l else 0)
  iso : ∀ l < out.L.dim, ∀ l' < out.L.dim, ∑ i ∈ Finset.range ai.dim, star (Ue i l) * Ue i l' = if l = l' then 1 else 0
  /-- The conjugated columns of `U` are eigenvectors, the elements of `D` the eigenvalues. -/
  eigen : ∀ i < ai.dim, ∀ l < out.L.dim, ∑ j ∈ Finset.range ai.dim, el i j * star (Ue j l) = algebraMap R K (De l) * star (Ue i l)
  fluxU : ∀ o ∈ out.U.offsets, ∀ n, norm (M n) (fluxVal [ai.dag, out.L.dag] o.block n) = 0
  fluxD : ∀ m < out.L.nblock, ∀ n, norm (M n) (fluxVal [out.L.prime pd, out.L.dag] [m, m] n) = 0

/-- The decomposition of a block with the eigenvectors conjugated. -/
def HFac.toFac (F : HFac R K) : Fac R K := ⟨fun i j => star (F.U i j), F.d, fun i j => star (F.U i j)⟩

omit [Algebra R K] in
theorem keep_false (fs : List (Ord2Block K × Fac R K)) (cs : List Nat) :
    keep false fs cs = ((triples fs cs).filter fun t => t.2.2 ≠ 0).map fun t => kept t.1 t.2.1 t.2.2 := by
  induction fs generalizing cs with
  | nil => cases cs <;> rfl
  | cons p fs ih =>
    obtain ⟨B, F⟩ := p
    cases cs with
    | nil => rfl
    | cons c cs =>
      rw [keep, triples, List.filter_cons]
      by_cases hc : c = 0
      · simp only [hc, if_true, ne_eq, not_true_eq_false, decide_false, Bool.false_eq_true, if_false]
        exact ih _
      · rw [if_neg hc, ih]
        simp [kept, hc]

omit [Algebra R K] in
theorem keepH_full (fs : List (Ord2Block K × HFac R K)) (cs : List Nat) (h : ∀ p ∈ fs, p.1.i1 = p.1.i2) :
    (keepH fs cs).map KeptH.full = keep false (fs.map fun p => (p.1, p.2.toFac)) cs := by
  induction fs generalizing cs with
  | nil => cases cs <;> rfl
  | cons p fs ih =>
    obtain ⟨B, F⟩ := p
    cases cs with
    | nil => rfl
    | cons c cs =>
      rw [List.map_cons, keepH, keep]
      by_cases hc : c = 0
      · rw [if_pos hc, if_pos hc]
        exact ih _ fun p hp => h p (by simp [hp])
      · rw [if_neg hc, if_neg hc, List.map_cons, ih _ fun p hp => h p (by simp [hp])]
        have := h (B, F) (by simp)
        dsimp only at this
        simp [KeptH.full, HFac.toFac, this]

theorem herm_main {M : Verif.QN.Name → Int} {u : List Verif.QN.Name} {ai : Index} {pd : Int} (hdir : ai.dir = 1 ∨ ai.dir = -1) (hdim : ai.dim = (szs ai).sum) (hok : SectorsOK M u [ai])
    (hdist : (ai.qns.map (·.1)).Pairwise fun a b => ∃ n, a.val n ≠ b.val n)
    (tr : Bool) {H : QDense K} (hH : WF (if tr then [ai.dag.prime pd, ai] else [ai, ai.dag.prime pd]) H.offsets H.size)
    (hflux : ∀ o ∈ H.offsets, ∀ n, norm (M n) (fluxVal (if tr then [ai.dag.prime pd, ai] else [ai, ai.dag.prime pd]) o.block n) = 0)
    {bs : List (Ord2Block K)} (hbs : BlocksOK (if tr then [ai.dag.prime pd, ai] else [ai, ai.dag.prime pd]) tr ai (ai.dag.prime pd) H bs)
    {herm : Nat → (Nat → Nat → K) → HFac R K} (hherm : ∀ B ∈ bs, IsHerm B.nr B.M (herm B.nr B.M)) {cs : List Nat}
    (hcs : List.Forall₂ (fun (p : Ord2Block K × Fac R K) c => c ≤ p.2.d.length) (bs.map fun B => (B, (herm B.nr B.M).toFac)) cs) (hsum : cs.sum ≠ 0)
    (fuel id : Nat) (t : TagSet) (te : R) (first : Nat) (hf : ai.nblock * bs.length < fuel) (hm : ((ai.nblock * bs.length : Nat) : Int) ≤ offMax) :
    ∃ out Ue De, assembleH fuel id t ai pd te first (keepH (bs.map fun B => (B, herm B.nr B.M)) cs) = some (.ok out) ∧
      out.L.id = id ∧ out.L.tags = t ∧ out.L.dir = ai.dag.dir ∧ out.truncerr = te ∧ out.L.dim = cs.sum ∧ out.D.data = De ∧
      Diagonalizes M ai pd (elA tr ai (ai.dag.prime pd) H) out Ue De ∧
      (∀ l < out.L.dim, ∃ t ∈ triples (bs.map fun B => (B, (herm B.nr B.M).toFac)) cs, De l ∈ t.2.1.d.take t.2.2) ∧
      ((∀ t ∈ triples (bs.map fun B => (B, (herm B.nr B.M).toFac)) cs, t.2.2 = t.2.1.d.length) →
        ∀ i < ai.dim, ∀ j < ai.dim, elA tr ai (ai.dag.prime pd) H i j = ∑ l ∈ Finset.range out.L.dim, star (Ue i l) * algebraMap R K (De l) * Ue j l) ∧
      (∀ a < ai.nblock, (∀ B ∈ bs, B.i1 ≠ a) → ∀ x < bsize ai a, ∀ l < out.L.dim, Ue (gl ai a x) l = 0) ∧ (∀ B ∈ bs, B.i1 = B.i2) := by
  set vI := ai.dag.prime pd with hvI
  have hdd : ai.dag.dir = 1 ∨ ai.dag.dir = -1 := by rcases hdir with h | h <;> simp [Index.dag, h]
  have hds : ai.dag.dir = - ai.dir := dag_dir hdir
  -- the blocks are on the diagonal
  have hdg : ∀ B ∈ bs, B.i1 = B.i2 := by
    intro B hB
    obtain ⟨g1, g2, _, _⟩ := hbs.rng B hB
    refine col_unique hdir hok hdist g1 (show B.i2 < ai.nblock from g2) fun n => ?_
    obtain ⟨o, ho, hb⟩ := hbs.mem _ hB
    have h1 := hflux o ho n
    rw [hb] at h1
    have h2 : fluxVal (if tr then [vI, ai] else [ai, vI]) (if tr then [B.i2, B.i1] else [B.i1, B.i2]) n =
        -((ai.qns.getD B.i2 (Verif.QN.QN.default, 0)).1.val n * ai.dir) + (ai.qns.getD B.i1 (Verif.QN.QN.default, 0)).1.val n * ai.dir := by
      have e : vI.dir = - ai.dir := hds
      have e' : vI.qns = ai.qns := rfl
      cases tr <;> simp [fluxVal, e, e'] <;> ring
    rw [h2] at h1
    refine norm_cancel (c := -((ai.qns.getD B.i2 (Verif.QN.QN.default, 0)).1.val n * ai.dir)) hdir ?_
    rw [h1, neg_add_cancel]
    simp [norm]
  set gs : List (Ord2Block K × HFac R K) := bs.map fun B => (B, herm B.nr B.M) with hgs
  set fs : List (Ord2Block K × Fac R K) := bs.map fun B => (B, (herm B.nr B.M).toFac) with hfs
  have hgf : (gs.map fun p => (p.1, p.2.toFac)) = fs := by rw [hgs, hfs, List.map_map]; rfl
  set ts := triples fs cs with hts
  have hlen : cs.length = fs.length := hcs.length_eq.symm
  have hkeepH : (keepH gs cs).map KeptH.full = keep false fs cs := by
    rw [keepH_full gs cs ?_, hgf]
    intro p hp
    obtain ⟨B, hB, rfl⟩ := List.mem_map.1 hp
    exact hdg B hB
  have hkeep := keep_false fs cs
  rw [← hts] at hkeep
  set ks := keep false fs cs with hks
  have htm : ∀ t ∈ ts, t.1 ∈ bs ∧ t.2.1 = (herm t.1.nr t.1.M).toFac ∧ IsHerm t.1.nr t.1.M (herm t.1.nr t.1.M) ∧ t.2.2 ≤ t.2.1.d.length := by
    intro t ht
    obtain ⟨h1, h2⟩ := triples_mem hcs ht
    obtain ⟨B, hB, e⟩ := List.mem_map.1 h1
    simp only [Prod.mk.injEq] at e
    obtain ⟨rfl, e⟩ := e
    exact ⟨hB, e.symm, hherm _ hB, h2⟩
  have htb : ts.map (·.1) = bs := by
    have := triples_fst fs cs hlen
    rw [← hts] at this
    have h2 : ts.map (·.1) = (ts.map fun t => (t.1, t.2.1)).map (·.1) := by rw [List.map_map]; rfl
    rw [h2, this, hfs, List.map_map]
    exact List.map_id _
  have hdist2 : ts.Pairwise fun t t' => ¬(t.1.i1 = t'.1.i1 ∧ t.1.i2 = t'.1.i2) := by
    have := hbs.dist
    rw [← htb, List.pairwise_map] at this
    exact this
  have hkm : ∀ q ∈ ks, ∃ t ∈ ts, t.2.2 ≠ 0 ∧ q = kept t.1 t.2.1 t.2.2 := by
    intro q hq
    rw [hkeep] at hq
    obtain ⟨t, ht, rfl⟩ := List.mem_map.1 hq
    obtain ⟨h1, h2⟩ := List.mem_filter.1 ht
    exact ⟨t, h1, by simpa using h2, rfl⟩
  have hdl : ∀ t ∈ ts, (kept t.1 t.2.1 t.2.2).d.length = t.2.2 := by
    intro t ht
    simp only [kept, List.length_take]
    have := (htm t ht).2.2.2
    omega
  have hgd : ∀ t ∈ ts, ∀ k < t.2.2, (kept t.1 t.2.1 t.2.2).d.getD k 0 = t.2.1.d.getD k 0 := by
    intro t _ k hk
    simp only [kept, List.getD_eq_getElem?_getD]
    rw [List.getElem?_take_of_lt hk]
  have hkl : ks.length ≤ bs.length := by
    rw [hkeep, List.length_map, ← htb, List.length_map]
    exact List.length_filter_le _ _
  have hcsum : (ks.map fun k => k.d.length).sum = cs.sum := by
    rw [kept_sum hkeep (fun k => k.d.length) (fun t ht h0 => by rw [hdl t ht, h0]), list_sum_congr ts _ (fun t => t.2.2) fun t ht => hdl t ht, triples_snd fs cs hlen]
  have hne : ks ≠ [] := by
    intro e
    rw [e] at hcsum
    exact hsum hcsum.symm
  have hneH : keepH gs cs ≠ [] := by
    intro e
    rw [e] at hkeepH
    exact hne hkeepH.symm
  have hkr : ∀ q ∈ ks, q.i1 < ai.dag.nblock ∧ q.i2 < ai.dag.nblock ∧ q.d ≠ [] := by
    intro q hq
    obtain ⟨t, ht, h0, rfl⟩ := hkm q hq
    obtain ⟨g1, g2, _, _⟩ := hbs.rng _ (htm t ht).1
    refine ⟨g1, g2, fun e => h0 ?_⟩
    rw [← hdl t ht, e]; rfl
  obtain ⟨q0, hq0⟩ := List.exists_mem_of_ne_nil ks hne
  have hu0 : 0 < ai.dag.nblock := by have := (hkr q0 hq0).1; omega
  have hmul : ∀ n : Nat, n * ks.length ≤ n * bs.length := fun n => Nat.mul_le_mul_left n hkl
  have hokd : SectorsOK M u [ai.dag, ai.dag] := ⟨hok.1, fun I hI => by
    have : I = ai.dag := by simpa using hI
    subst this
    exact hok.2 ai (by simp)⟩
  obtain ⟨out, o1, o2, _, o4, _, o6, hasm⟩ := assemble_spec (R := R) hdd hdd hu0 hu0 hokd fuel id id t t te hne hkr
    (Nat.lt_of_le_of_lt (hmul _) hf) (Nat.lt_of_le_of_lt (hmul _) hf) (le_trans (by exact_mod_cast hmul _) hm) (le_trans (by exact_mod_cast hmul _) hm)
  have hel := elts_of hasm
  have hrun := assembleH_of (pd := pd) (first := first) hneH (by rw [hkeepH]; exact o1)
  set Ue := at2 out.s.U ai.dag out.L.dag with hUe
  set De := out.s.D.data with hDe
  set Ve := at2 out.s.V ai.dag out.L'.dag
  have hdimL : out.L.dim = cs.sum := by rw [hasm.dimL, hcsum]
  have hLd : out.L.dim = (szs out.L).sum := by rw [hasm.dimL, hasm.szL]
  have hL : out.L.nblock = ks.length := by rw [← szs_length, hasm.szL]; simp
  have hsz : ∀ m q, ks[m]? = some q → bsize out.L m = q.d.length := by
    intro m q hq
    rw [bsize, hasm.szL, List.getD_eq_getElem?_getD, List.getElem?_map, hq]; rfl
  -- a position on the new index
  have hpos : ∀ l < out.L.dim, ∃ m k t, l = gl out.L m k ∧ t ∈ ts ∧ t.2.2 ≠ 0 ∧ ks[m]? = some (kept t.1 t.2.1 t.2.2) ∧ k < t.2.2 ∧ k < bsize out.L m := by
    intro l hl
    obtain ⟨m, k, hm, hk, rfl⟩ := split_value (X := out.L) (by rw [← hLd]; exact hl)
    have hk0 := hk
    rw [hL] at hm
    obtain ⟨q, hq⟩ : ∃ q, ks[m]? = some q := ⟨ks[m], List.getElem?_eq_getElem hm⟩
    obtain ⟨t, ht, h0, rfl⟩ := hkm q (List.mem_of_getElem? hq)
    rw [hsz m _ hq, hdl t ht] at hk
    exact ⟨m, k, t, rfl, ht, h0, hq, hk, hk0⟩
  have hUat : ∀ a m x k t, a < ai.nblock → x < bsize ai a → t ∈ ts → ks[m]? = some (kept t.1 t.2.1 t.2.2) → k < bsize out.L m →
      Ue (gl ai a x) (gl out.L m k) = if a = t.1.i1 then star ((herm t.1.nr t.1.M).U x k) else 0 := by
    intro a m x k t ha hx ht hq hk
    have hm := (List.getElem?_eq_some_iff.1 hq).1
    have := hel.u a m x k ha hm hx hk
    rw [show gl ai.dag a x = gl ai a x from rfl] at this
    rw [this]
    unfold uEnt
    rw [hq]
    simp only [Option.elim_some, hm, true_and, kept, (htm t ht).2.1, HFac.toFac]
  have hVat : ∀ i < ai.dim, ∀ l < out.L.dim, Ve i l = star (Ue i l) := by
    intro i hi l hl
    obtain ⟨m, k, t, rfl, ht, _, hq, hk, hk0⟩ := hpos l hl
    obtain ⟨a, x, ha, hx, rfl⟩ := split_value (X := ai) (by rw [← hdim]; exact hi)
    have hm := (List.getElem?_eq_some_iff.1 hq).1
    have := hel.v a m x k ha hm hx hk0
    rw [show gl ai.dag a x = gl ai a x from rfl] at this
    rw [this, hUat a m x k t ha hx ht hq hk0]
    unfold vEnt
    rw [hq]
    simp only [Option.elim_some, hm, true_and, kept, (htm t ht).2.1, HFac.toFac, ← hdg _ (htm t ht).1]
    by_cases h : a = t.1.i1 <;> simp [h]
  have hDat : ∀ m k t, t ∈ ts → ks[m]? = some (kept t.1 t.2.1 t.2.2) → k < t.2.2 → De (gl out.L m k) = (herm t.1.nr t.1.M).d.getD k 0 := by
    intro m k t ht hq hk
    rw [hel.d m k _ hq (by rw [hdl t ht]; exact hk), hgd t ht k hk, (htm t ht).2.1]
    rfl
  -- elements of the matrix
  have helA : ∀ a b x y, a < ai.nblock → b < ai.nblock → x < bsize ai a → y < bsize ai b →
      elA tr ai vI H (gl ai a x) (gl ai b y) = (ts.map fun t => if t.1.i1 = a ∧ t.1.i2 = b then t.1.M x y else 0).sum := by
    intro a b x y ha hb hx hy
    unfold elA
    have := elA_gl (uI := ai) (vI := vI) hH ha (show b < vI.nblock from hb) hx (show y < bsize vI b from hy)
    rw [show gl vI b y = gl ai b y from rfl] at this
    rw [this, hbs.elt a b x y ha hb hx hy]
    dsimp only
    conv_lhs => rw [← htb, List.map_map]
    rfl
  have hnr : ∀ t ∈ ts, t.1.nr = bsize ai t.1.i1 ∧ t.1.i1 < ai.nblock := fun t ht => ⟨(hbs.rng _ (htm t ht).1).2.2.1, (hbs.rng _ (htm t ht).1).1⟩
  have huni : ∀ (m m' : Nat) (q q' : Kept R K), ks[m]? = some q → ks[m']? = some q' → q.i1 = q'.i1 → m = m' := by
    intro m m' q q' hq hq' e1
    have hkd : ks.Pairwise fun q q' => ¬(q.i1 = q'.i1 ∧ q.i2 = q'.i2) := by
      rw [hkeep, List.pairwise_map]
      exact List.Pairwise.filter _ hdist2
    have e2 : q.i2 = q'.i2 := by
      obtain ⟨t, ht, _, rfl⟩ := hkm q (List.mem_of_getElem? hq)
      obtain ⟨t', ht', _, rfl⟩ := hkm q' (List.mem_of_getElem? hq')
      have a1 := hdg _ (htm t ht).1
      have a2 := hdg _ (htm t' ht').1
      simp only [kept] at e1 ⊢
      omega
    obtain ⟨hm, rfl⟩ := List.getElem?_eq_some_iff.1 hq
    obtain ⟨hm', rfl⟩ := List.getElem?_eq_some_iff.1 hq'
    rw [List.pairwise_iff_getElem] at hkd
    rcases Nat.lt_trichotomy m m' with hlt | heq | hgt
    · exact absurd ⟨e1, e2⟩ (hkd m m' hm hm' hlt)
    · exact heq
    · exact absurd ⟨e1.symm, e2.symm⟩ (hkd m' m hm' hm hgt)
  refine ⟨_, Ue, De, hrun, o2, o4, hasm.dirL, o6, hdimL, rfl, ⟨?_, hel.rd, ?_, ?_, hasm.uflux, ?_⟩, ?_, ?_, ?_, hdg⟩
  · rw [hdim]; exact hel.ru
  · rw [hdim]
    refine iso_u hasm hel (fun q hq => (hkr q hq).1) huni ?_
    intro q hq k hk k' hk'
    obtain ⟨t, ht, _, rfl⟩ := hkm q hq
    rw [hdl t ht] at hk hk'
    obtain ⟨hB, e, hF, hc⟩ := htm t ht
    have hc' : t.2.2 ≤ t.1.nr := by rw [e] at hc; rw [← hF.len]; exact hc
    have := hF.uu k' (by omega) k (by omega)
    show ∑ x ∈ Finset.range (bsize ai t.1.i1), _ = _
    rw [← (hnr t ht).1]
    simp only [kept, e, HFac.toFac, star_star]
    rw [show (if k = k' then (1 : K) else 0) = if k' = k then 1 else 0 by simp [eq_comm], ← this]
    exact Finset.sum_congr rfl fun j _ => mul_comm _ _
  · intro i hi l hl
    obtain ⟨m, k, t, rfl, ht, _, hq, hk, hk0⟩ := hpos l hl
    obtain ⟨a, x, ha, hx, rfl⟩ := split_value (X := ai) (by rw [← hdim]; exact hi)
    obtain ⟨hB, e, hF, hc⟩ := htm t ht
    have hc' : t.2.2 ≤ t.1.nr := by rw [e] at hc; rw [← hF.len]; exact hc
    rw [hUat a m x k t ha hx ht hq hk0, hDat m k t ht hq hk, hdim, sum_sizes, szs_length]
    have h1 : ∀ b ∈ Finset.range ai.nblock, ∑ y ∈ Finset.range ((szs ai).getD b 0), elA tr ai vI H (gl ai a x) (((szs ai).take b).sum + y) * star (Ue (((szs ai).take b).sum + y) (gl out.L m k)) =
        if b = t.1.i1 then (if a = t.1.i1 then algebraMap R K ((herm t.1.nr t.1.M).d.getD k 0) * (herm t.1.nr t.1.M).U x k else 0) else 0 := by
      intro b hb
      have hb := Finset.mem_range.1 hb
      have h2 : ∀ y ∈ Finset.range ((szs ai).getD b 0), elA tr ai vI H (gl ai a x) (((szs ai).take b).sum + y) * star (Ue (((szs ai).take b).sum + y) (gl out.L m k)) =
          if b = t.1.i1 then (if a = t.1.i1 then t.1.M x y * (herm t.1.nr t.1.M).U y k else 0) else 0 := by
        intro y hy
        have hy : y < bsize ai b := Finset.mem_range.1 hy
        have e1 := hUat b m y k t hb hy ht hq hk0
        have e2 := helA a b x y ha hb hx hy
        rw [show gl ai b y = ((szs ai).take b).sum + y from rfl] at e1 e2
        rw [e1, e2]
        by_cases c1 : b = t.1.i1
        · rw [if_pos c1, if_pos c1, star_star]
          by_cases c2 : a = t.1.i1
          · have := list_sum_one (i1 := fun t : Ord2Block K × Fac R K × Nat => t.1.i1) (i2 := fun t => t.1.i2) hdist2 (fun C => C.1.M x y) ht
            rw [c2, c1, if_pos rfl]
            simp only [← hdg _ hB] at this
            rw [this]
          · rw [if_neg c2, list_sum_zero, zero_mul]
            intro t' ht'
            rw [if_neg]
            rintro ⟨g1, g2⟩
            exact c2 (by rw [← g1, hdg _ (htm t' ht').1, g2, c1])
        · rw [if_neg c1, if_neg c1, star_zero, mul_zero]
      rw [Finset.sum_congr rfl h2]
      by_cases c1 : b = t.1.i1
      · simp only [if_pos c1]
        by_cases c2 : a = t.1.i1
        · simp only [if_pos c2]
          rw [c1, show (szs ai).getD t.1.i1 0 = t.1.nr from (hnr t ht).1.symm]
          exact hF.eigen (by rw [(hnr t ht).1, ← c2]; exact hx) (by omega)
        · simp [if_neg c2]
      · simp [if_neg c1]
    rw [Finset.sum_congr rfl h1, Finset.sum_ite_eq' (Finset.range ai.nblock) t.1.i1, if_pos (Finset.mem_range.2 (hnr t ht).2)]
    by_cases c2 : a = t.1.i1
    · rw [if_pos c2, if_pos c2, star_star]
    · rw [if_neg c2, if_neg c2, star_zero, mul_zero]
  · intro m hm n
    have hd : out.L.dag.dir = - out.L.dir := dag_dir (by rw [hasm.dirL]; exact hdd)
    simp only [fluxVal, List.zipWith_cons_cons, List.zipWith_nil_left, List.sum_cons, List.sum_nil, add_zero, hd]
    simp [Index.prime, Index.dag, norm]
  · intro l hl
    obtain ⟨m, k, t, rfl, ht, _, hq, hk, _⟩ := hpos l hl
    refine ⟨t, ht, ?_⟩
    have hkd : k < (kept t.1 t.2.1 t.2.2).d.length := by rw [hdl t ht]; exact hk
    rw [hel.d m k _ hq hkd, List.getD_eq_getElem?_getD, List.getElem?_eq_getElem hkd]
    exact List.getElem_mem hkd
  · intro hall i hi j hj
    obtain ⟨a, x, ha, hx, rfl⟩ := split_value (X := ai) (by rw [← hdim]; exact hi)
    obtain ⟨b, y, hb, hy, rfl⟩ := split_value (X := ai) (by rw [← hdim]; exact hj)
    have hp := product_eq hasm hel (a := b) (b := a) (x := y) (y := x) hb ha hy hx
    rw [show gl ai.dag a x = gl ai a x from rfl, show gl ai.dag b y = gl ai b y from rfl] at hp
    have e1 : ∑ l ∈ Finset.range out.L.dim, star (Ue (gl ai a x) l) * algebraMap R K (De l) * Ue (gl ai b y) l =
        ∑ l ∈ Finset.range out.L.dim, Ue (gl ai b y) l * algebraMap R K (De l) * Ve (gl ai a x) l := by
      refine Finset.sum_congr rfl fun l hl => ?_
      rw [hVat _ hi l (Finset.mem_range.1 hl)]
      ring
    rw [e1, hp, helA a b x y ha hb hx hy, kept_sum hkeep]
    · refine list_sum_congr _ _ _ fun t ht => ?_
      obtain ⟨hB, e, hF, hc⟩ := htm t ht
      have hd := hdg _ hB
      by_cases hab : t.1.i1 = a ∧ t.1.i2 = b
      · rw [if_pos hab, if_pos (show (kept t.1 t.2.1 t.2.2).i1 = b ∧ (kept t.1 t.2.1 t.2.2).i2 = a from ⟨by simp only [kept]; omega, by simp only [kept]; omega⟩)]
        have hfull : t.2.2 = t.1.nr := by rw [hall t ht, e]; exact hF.len
        have hr : Finset.range t.2.2 = Finset.range t.1.nr := by rw [hfull]
        rw [hdl t ht, hr, hF.eq x (by rw [(hnr t ht).1, hab.1]; exact hx) y (by rw [(hnr t ht).1, hd, hab.2]; exact hy)]
        refine Finset.sum_congr rfl fun k hk => ?_
        rw [hgd t ht k (by rw [hfull]; exact Finset.mem_range.1 hk)]
        simp only [kept, e, HFac.toFac, star_star]
        ring
      · rw [if_neg hab, if_neg]
        rintro ⟨g1, g2⟩
        simp only [kept] at g1 g2
        exact hab ⟨by omega, by omega⟩
    · intro t ht h0
      rw [hdl t ht, h0]
      simp
  · intro a ha habs x hx l hl
    obtain ⟨m, k, t, rfl, ht, _, hq, hk, hk0⟩ := hpos l hl
    rw [hUat a m x k t ha hx ht hq hk0, if_neg]
    exact fun e => habs _ (htm t ht).1 e.symm

end

end Verif.Svd
