import Verif.Decomp.HermitianProps
import Mathlib.Analysis.Normed.Algebra.MatrixExponential
import Mathlib.Analysis.Complex.Basic
import Mathlib.Analysis.SpecialFunctions.Exponential

/-!
# C78: eigenvalue decomposition and exponential of a hermitian tensor with quantum numbers
-/

namespace Verif.Svd

open Verif.Index (Index IndexSet)
open Verif.QDense
open Verif.Decomp (Opts)
open Verif.Tensor
open Verif.TagSet (TagSet)
open Verif.QN (IsQN norm)

section
variable {R K : Type*} [Field R] [LinearOrder R] [CommRing K] [StarRing K] [Algebra R K]

/-- The hypotheses on the matrix: an index with sectors of positive size and different quantum numbers, as combining indices gives it (C27), storage with blocks of zero flux, at least one;
the moduli of the quantum numbers are `M`; the new index has at most `offMax` places for blocks; `herm` decomposes every block, which is then hermitian. -/
structure HermOK (M : Verif.QN.Name → Int) (fuel : Nat) (herm : Nat → (Nat → Nat → K) → HFac R K) (tr : Bool) (ai : Index) (pd : Int) (H : QDense K) : Prop where
  ne : (ai.prime pd).eq ai = false
  dir : ai.dir = 1 ∨ ai.dir = -1
  dim : ai.dim = (szs ai).sum
  pos : ∀ q ∈ ai.qns, 0 < q.2
  qns : ∃ u, SectorsOK M u [ai]
  dist : (ai.qns.map (·.1)).Pairwise fun a b => ∃ n, a.val n ≠ b.val n
  wf : WF (if tr then [ai.dag.prime pd, ai] else [ai, ai.dag.prime pd]) H.offsets H.size
  some : H.offsets ≠ []
  flux : ∀ o ∈ H.offsets, ∀ n, norm (M n) (fluxVal (if tr then [ai.dag.prime pd, ai] else [ai, ai.dag.prime pd]) o.block n) = 0
  herm : ∀ bs, getBlocks (if tr then ai.dag.prime pd else ai) (if tr then ai else ai.dag.prime pd) tr H H.offsets = .ok bs → ∀ B ∈ bs, IsHerm B.nr B.M (herm B.nr B.M)
  fuel : ai.nblock * H.offsets.length < fuel
  max : ((ai.nblock * H.offsets.length : Nat) : Int) ≤ offMax

/-- The eigenvalues of all blocks, in decreasing order (hermitian.cc:245, 261-264). -/
def spectrumH (herm : Nat → (Nat → Nat → K) → HFac R K) (bs : List (Ord2Block K)) : List R :=
  ((bs.map fun B => (herm B.nr B.M).d).flatten).mergeSort fun a b => decide (b ≤ a)

theorem diagQN_run {M : Verif.QN.Name → Int} {fuel : Nat} {herm : Nat → (Nat → Nat → K) → HFac R K} {tr : Bool} {ai : Index} {pd : Int} {H : QDense K}
    (h : HermOK M fuel herm tr ai pd H) (eps : R) (trunc : Option (Opts R)) (id : Nat) (t : TagSet) :
    ∃ bs, getBlocks (if tr then ai.dag.prime pd else ai) (if tr then ai else ai.dag.prime pd) tr H H.offsets = .ok bs ∧ bs ≠ [] ∧ bs.length = H.offsets.length ∧
      BlocksOK (if tr then [ai.dag.prime pd, ai] else [ai, ai.dag.prime pd]) tr ai (ai.dag.prime pd) H bs ∧
      (∀ B ∈ bs, IsHerm B.nr B.M (herm B.nr B.M)) ∧ (∀ B ∈ bs, (herm B.nr B.M).d ≠ []) ∧ (∀ B ∈ bs, B.i1 = B.i2) ∧
      ∀ cs te, countsH eps trunc ((bs.map fun B => (B, herm B.nr B.M)).map fun p => p.2.d) = .ok (cs, te) →
        ∃ first, diagQN fuel herm eps trunc id t (if tr then [ai.dag.prime pd, ai] else [ai, ai.dag.prime pd]) ai pd H =
          assembleH fuel id t ai pd te first (keepH (bs.map fun B => (B, herm B.nr B.M)) cs) := by
  obtain ⟨bs, h1, h2, h3⟩ := getBlocks_ok tr h.wf
  have hne : bs ≠ [] := fun e => h.some (List.eq_nil_of_length_eq_zero (by rw [← h2, e]; rfl))
  have hs := h.herm bs h1
  obtain ⟨u, hok⟩ := h.qns
  have hd0 : ∀ B ∈ bs, (herm B.nr B.M).d ≠ [] := by
    intro B hB e
    obtain ⟨g1, _, g3, _⟩ := h3.rng B hB
    have := (hs B hB).len
    rw [e, g3] at this
    have p1 := bsize_pos h.pos g1
    simp only [List.length_nil] at this
    omega
  have hdg : ∀ B ∈ bs, B.i1 = B.i2 := by
    have hcs : List.Forall₂ (fun (p : Ord2Block K × Fac R K) c => c ≤ p.2.d.length) (bs.map fun B => (B, (herm B.nr B.M).toFac)) (bs.map fun B => (herm B.nr B.M).d.length) := by
      rw [List.forall₂_map_right_iff, List.forall₂_map_left_iff]
      exact List.forall₂_same.2 fun p _ => le_refl _
    have hsum : (bs.map fun B => (herm B.nr B.M).d.length).sum ≠ 0 := by
      obtain ⟨B0, hB0⟩ := List.exists_mem_of_ne_nil bs hne
      have h5 := List.le_sum_of_mem (List.mem_map.2 ⟨B0, hB0, rfl⟩ : (herm B0.nr B0.M).d.length ∈ bs.map fun B => (herm B.nr B.M).d.length)
      have h6 : (herm B0.nr B0.M).d.length ≠ 0 := fun e => hd0 B0 hB0 (List.eq_nil_of_length_eq_zero e)
      omega
    obtain ⟨_, _, _, _, _, _, _, _, _, _, _, _, _, _, g⟩ := herm_main h.dir h.dim hok h.dist tr h.wf h.flux h3 hs hcs hsum fuel id t (0 : R) 0 (by rw [h2]; exact h.fuel) (by rw [h2]; exact h.max)
    exact g
  refine ⟨bs, h1, hne, h2, h3, hs, hd0, hdg, fun cs te hc => ⟨(bs.map (·.i1)).headD 0, ?_⟩⟩
  have htr : (ai.prime pd).eq (if tr then ai.dag.prime pd else ai) = tr := by
    cases tr
    · exact h.ne
    · simp [Index.eq, Verif.TagSet.TagSet.eq, Index.prime, Index.dag]
  have his : (if tr then [ai.dag.prime pd, ai] else [ai, ai.dag.prime pd]) = [if tr then ai.dag.prime pd else ai, if tr then ai else ai.dag.prime pd] := by cases tr <;> rfl
  rw [his]
  unfold diagQN
  dsimp only
  rw [htr, h1]
  dsimp only
  rw [if_neg]
  · rw [hc]
    dsimp only
    rw [if_neg hne]
  · simp only [List.any_eq_true, decide_eq_true_eq, not_exists, not_and]
    intro B hB
    obtain ⟨g1, g2, g3, g4⟩ := h3.rng B hB
    have p1 := bsize_pos h.pos g1
    have e : B.nc = B.nr := by rw [g3, g4, hdg B hB]; rfl
    omega

theorem full_triples : ∀ (l : List (Ord2Block K × Fac R K)) (t), t ∈ triples l (l.map fun p => p.2.d.length) → t.2.2 = t.2.1.d.length := by
  intro l
  induction l with
  | nil => intro t ht; simp [triples] at ht
  | cons p l ih =>
    intro t ht
    obtain ⟨B, G⟩ := p
    simp only [List.map_cons, triples, List.mem_cons] at ht
    rcases ht with rfl | ht
    · rfl
    · exact ih t ht

/-- **C78.** Without truncation `diagHermitian` of a matrix with quantum numbers succeeds and returns `U` and `D` such that `H = dag(U) D prime(U)`, the conjugated columns of `U` are
orthonormal eigenvectors and the elements of `D`, which is diagonal, the eigenvalues; both have zero flux. If every diagonal block of the matrix is stored, `U` is unitary; if not, the rows of
`U` which belong to the other sectors are zero. -/
theorem C78_diag {M : Verif.QN.Name → Int} {fuel : Nat} {herm : Nat → (Nat → Nat → K) → HFac R K} {tr : Bool} {ai : Index} {pd : Int} {H : QDense K}
    (h : HermOK M fuel herm tr ai pd H) (eps : R) (id : Nat) (t : TagSet) :
    ∃ out Ue De, diagQN fuel herm eps none id t (if tr then [ai.dag.prime pd, ai] else [ai, ai.dag.prime pd]) ai pd H = some (.ok out) ∧
      out.L.id = id ∧ out.L.tags = t ∧ out.L.dir = - ai.dir ∧ out.truncerr = 0 ∧ out.D.data = De ∧
      Diagonalizes M ai pd (elA tr ai (ai.dag.prime pd) H) out Ue De ∧
      (∀ i < ai.dim, ∀ j < ai.dim, elA tr ai (ai.dag.prime pd) H i j = ∑ l ∈ Finset.range out.L.dim, star (Ue i l) * algebraMap R K (De l) * Ue j l) ∧
      ((∀ a < ai.nblock, ∃ o ∈ H.offsets, o.block = [a, a]) → out.L.dim = ai.dim ∧
        ∀ i < ai.dim, ∀ j < ai.dim, ∑ l ∈ Finset.range out.L.dim, star (Ue i l) * Ue j l = if i = j then 1 else 0) ∧
      ∀ a < ai.nblock, (∀ o ∈ H.offsets, o.block ≠ [a, a]) → ∀ x < bsize ai a, ∀ l < out.L.dim, Ue (gl ai a x) l = 0 := by
  obtain ⟨bs, hget, hne, hlen, hbs, hherm, hd0, hdg, hrun⟩ := diagQN_run h eps none id t
  obtain ⟨u, hok⟩ := h.qns
  set fs : List (Ord2Block K × Fac R K) := bs.map fun B => (B, (herm B.nr B.M).toFac) with hfs
  set cs := (((bs.map fun B => (B, herm B.nr B.M)).map fun p => p.2.d).map (·.length)) with hcsd
  have hcsf : cs = fs.map fun p => p.2.d.length := by
    rw [hcsd, hfs, List.map_map, List.map_map, List.map_map]; rfl
  have hcs : List.Forall₂ (fun (p : Ord2Block K × Fac R K) c => c ≤ p.2.d.length) fs cs := by
    rw [hcsf, List.forall₂_map_right_iff]
    exact List.forall₂_same.2 fun p _ => le_refl _
  have hcsb : cs = bs.map fun B => bsize ai B.i1 := by
    rw [hcsd, List.map_map, List.map_map]
    refine List.map_congr_left fun B hB => ?_
    simp only [Function.comp_apply]
    rw [(hherm B hB).len, (hbs.rng B hB).2.2.1]
  have hsum : cs.sum ≠ 0 := by
    obtain ⟨B0, hB0⟩ := List.exists_mem_of_ne_nil bs hne
    have h5 : bsize ai B0.i1 ≤ cs.sum := by
      rw [hcsb]
      exact List.le_sum_of_mem (List.mem_map.2 ⟨B0, hB0, rfl⟩)
    have := bsize_pos h.pos (hbs.rng B0 hB0).1
    omega
  obtain ⟨first, hrun⟩ := hrun cs 0 rfl
  obtain ⟨out, Ue, De, g1, g2, g3, g4, g5, g6, g7, g8, g9, g10, g11, _⟩ := herm_main h.dir h.dim hok h.dist tr h.wf h.flux hbs hherm hcs hsum fuel id t (0 : R) first
    (by rw [hlen]; exact h.fuel) (by rw [hlen]; exact h.max)
  -- stored blocks and the list of blocks
  have hst : ∀ a < ai.nblock, (∃ o ∈ H.offsets, o.block = [a, a]) ↔ ∃ B ∈ bs, B.i1 = a := by
    intro a ha
    constructor
    · rintro ⟨o, ho, hb⟩
      have hval : ∀ o ∈ H.offsets, Valid (nb [if tr then ai.dag.prime pd else ai, if tr then ai else ai.dag.prime pd]) o.block := by
        intro o ho
        have := h.wf.valid o ho
        cases tr <;> exact this
      have hget' := getBlocks_map tr H H.offsets hval
      rw [hget] at hget'
      injection hget' with hget'
      refine ⟨_, by rw [hget']; exact List.mem_map.2 ⟨o, ho, rfl⟩, ?_⟩
      unfold mkBlock
      rw [hb]
      cases tr <;> rfl
    · rintro ⟨B, hB, rfl⟩
      obtain ⟨o, ho, hb⟩ := hbs.mem B hB
      refine ⟨o, ho, ?_⟩
      rw [hb, ← hdg B hB]
      cases tr <;> rfl
  refine ⟨out, Ue, De, hrun.trans g1, g2, g3, by rw [g4, dag_dir h.dir], g5, g7, g8, g10 fun q hq => full_triples fs q (by rw [← hcsf]; exact hq), ?_, ?_⟩
  · intro hall
    have hdimL : out.L.dim = ai.dim := by
      rw [g6, h.dim, hcsb]
      have hnd : (bs.map (·.i1)).Nodup := by
        refine List.pairwise_map.2 (hbs.dist.imp_of_mem fun {B B'} hB hB' hne e => hne ⟨e, ?_⟩)
        rw [← hdg B hB, ← hdg B' hB']
        exact e
      have hp : (bs.map (·.i1)).Perm (List.range ai.nblock) := by
        refine (List.perm_ext_iff_of_nodup hnd List.nodup_range).2 fun a => ?_
        rw [List.mem_range, List.mem_map]
        constructor
        · rintro ⟨B, hB, rfl⟩; exact (hbs.rng B hB).1
        · intro ha
          obtain ⟨B, hB, e⟩ := (hst a ha).1 (hall a ha)
          exact ⟨B, hB, e⟩
      have e1 : (bs.map fun B => bsize ai B.i1) = (bs.map (·.i1)).map (bsize ai) := by rw [List.map_map]; rfl
      rw [e1, (hp.map (bsize ai)).sum_eq]
      have e2 : (List.range ai.nblock).map (bsize ai) = szs ai := by
        refine List.ext_getElem (by simp [szs_length]) fun n h1 h2 => ?_
        simp only [List.getElem_map, List.getElem_range, bsize]
        rw [List.getD_eq_getElem?_getD, List.getElem?_eq_getElem h2]
        rfl
      rw [e2]
    refine ⟨hdimL, ?_⟩
    let W : Matrix (Fin ai.dim) (Fin ai.dim) K := Matrix.of fun i l => star (Ue i l)
    have hW : W.conjTranspose * W = 1 := by
      ext l l'
      rw [Matrix.mul_apply, Matrix.one_apply]
      simp only [Matrix.conjTranspose_apply, W, Matrix.of_apply, star_star]
      have := g8.iso l'.1 (by rw [hdimL]; exact l'.2) l.1 (by rw [hdimL]; exact l.2)
      rw [← Fin.sum_univ_eq_sum_range (fun i => star (Ue i l'.1) * Ue i l.1)] at this
      rw [show (if l = l' then (1 : K) else 0) = if l'.1 = l.1 then 1 else 0 by simp [Fin.ext_iff, eq_comm], ← this]
      exact Finset.sum_congr rfl fun _ _ => mul_comm _ _
    have hW' : W * W.conjTranspose = 1 := mul_eq_one_comm.1 hW
    intro i hi j hj
    have := congrFun (congrFun hW' ⟨i, hi⟩) ⟨j, hj⟩
    rw [Matrix.mul_apply, Matrix.one_apply] at this
    simp only [Matrix.conjTranspose_apply, W, Matrix.of_apply, star_star, Fin.mk.injEq] at this
    rw [hdimL, ← Fin.sum_univ_eq_sum_range (fun l => star (Ue i l) * Ue j l)]
    exact this
  · intro a ha habs
    refine g11 a ha fun B hB e => ?_
    obtain ⟨o, ho, hb⟩ := (hst a ha).2 ⟨B, hB, e⟩
    exact habs o ho hb

/-- **C78 (partial).** With truncation, for a matrix without negative eigenvalues (`diagPosSemiDef`): the conjugated columns of `U` are orthonormal eigenvectors with the elements of `D`
as eigenvalues, there are as many as `truncate` keeps of the spectrum of all blocks, and every kept value lies above the lower bound it returned. Missing: the cases in which the selection
disagrees with `truncate` (C37) or nothing is kept (C36). -/
theorem C78_truncated_partial [IsStrictOrderedRing R] {M : Verif.QN.Name → Int} {fuel : Nat} {herm : Nat → (Nat → Nat → K) → HFac R K} {tr : Bool} {ai : Index} {pd : Int} {H : QDense K}
    (h : HermOK M fuel herm tr ai pd H) {eps : R} (heps : 0 < eps) (o : Opts R) (hmax : 1 ≤ o.maxdim) (hmin : 1 ≤ o.mindim)
    (hT : ∀ bs t, getBlocks (if tr then ai.dag.prime pd else ai) (if tr then ai else ai.dag.prime pd) tr H H.offsets = .ok bs → Verif.Decomp.truncate eps o (spectrumH herm bs) = .ok t →
      t.P ≠ [] ∧ t.upper ∉ spectrumH herm bs)
    (hpos : ∀ bs, getBlocks (if tr then ai.dag.prime pd else ai) (if tr then ai else ai.dag.prime pd) tr H H.offsets = .ok bs → ∀ x ∈ spectrumH herm bs, 0 ≤ x) (id : Nat) (tg : TagSet) :
    ∃ bs t out Ue De, getBlocks (if tr then ai.dag.prime pd else ai) (if tr then ai else ai.dag.prime pd) tr H H.offsets = .ok bs ∧ Verif.Decomp.truncate eps o (spectrumH herm bs) = .ok t ∧
      diagQN fuel herm eps (some o) id tg (if tr then [ai.dag.prime pd, ai] else [ai, ai.dag.prime pd]) ai pd H = some (.ok out) ∧
      out.L.id = id ∧ out.L.tags = tg ∧ out.L.dir = - ai.dir ∧ out.truncerr = t.truncerr ∧ out.L.dim = t.P.length ∧ out.D.data = De ∧
      Diagonalizes M ai pd (elA tr ai (ai.dag.prime pd) H) out Ue De ∧ ∀ l < out.L.dim, t.lower < De l := by
  obtain ⟨bs, hget, hne, hlen, hbs, hherm, hd0, hdg, hrun⟩ := diagQN_run h eps (some o) id tg
  obtain ⟨u, hok⟩ := h.qns
  set fs : List (Ord2Block K × Fac R K) := bs.map fun B => (B, (herm B.nr B.M).toFac) with hfs
  set ds := (bs.map fun B => (B, herm B.nr B.M)).map fun p => p.2.d with hds
  have hdsb : ds = bs.map fun B => (herm B.nr B.M).d := by rw [hds, List.map_map]; rfl
  have hspec : spectrumH herm bs = ds.flatten.mergeSort fun a b => decide (b ≤ a) := by rw [spectrumH, hdsb]
  have hperm : ds.flatten.Perm (spectrumH herm bs) := by rw [hspec]; exact (List.mergeSort_perm _ _).symm
  have hPd : Verif.Decomp.Desc (spectrumH herm bs) := by
    rw [hspec]
    have := List.pairwise_mergeSort (le := fun a b : R => decide (b ≤ a)) (by intro a b c; simp; exact fun h1 h2 => le_trans h2 h1) (by intro a b; simp; exact le_total _ _) ds.flatten
    exact this.imp fun h => by simpa using h
  have hb : ∀ d ∈ ds, Verif.Decomp.Desc d := by
    intro d hd
    rw [hdsb] at hd
    obtain ⟨B, hB, rfl⟩ := List.mem_map.1 hd
    exact (hherm B hB).desc
  have hPne : spectrumH herm bs ≠ [] := by
    obtain ⟨B0, hB0⟩ := List.exists_mem_of_ne_nil bs hne
    obtain ⟨y, hy⟩ := List.exists_mem_of_ne_nil _ (hd0 B0 hB0)
    intro e
    have : y ∈ ds.flatten := List.mem_flatten.2 ⟨_, by rw [hdsb]; exact List.mem_map.2 ⟨B0, hB0, rfl⟩, hy⟩
    rw [hperm.mem_iff, e] at this
    simp at this
  obtain ⟨t, ht, hsel⟩ := Verif.Decomp.C37_select_partial heps o hPd hPne (hpos bs hget) hmax hmin hb hperm
  obtain ⟨hP0, hup⟩ := hT bs t hget ht
  obtain ⟨hs1, hs2⟩ := hsel hup
  set cs := Verif.Decomp.select t.P.length t.lower t.upper ds 0 t.ndegen with hcsd
  have hs3 : List.Forall₂ (fun (p : Ord2Block K × Fac R K) c => c ≤ p.2.d.length ∧ ∀ x ∈ p.2.d.take c, t.lower < x) fs cs := by
    rw [hdsb, List.forall₂_map_left_iff] at hs2
    rw [hfs, List.forall₂_map_left_iff]
    exact hs2.imp fun p c hpc => ⟨hpc.1, hpc.2.1⟩
  have hcnt : countsH eps (some o) ds = .ok (cs, t.truncerr) := by
    unfold countsH
    dsimp only
    rw [← hspec, ht]
    rfl
  obtain ⟨first, hrun⟩ := hrun cs t.truncerr hcnt
  obtain ⟨out, Ue, De, g1, g2, g3, g4, g5, g6, g7, g8, g9, _⟩ := herm_main h.dir h.dim hok h.dist tr h.wf h.flux hbs hherm (hs3.imp fun p c hpc => hpc.1) (by rw [hs1]; simpa using hP0)
    fuel id tg t.truncerr first (by rw [hlen]; exact h.fuel) (by rw [hlen]; exact h.max)
  refine ⟨bs, t, out, Ue, De, hget, ht, hrun.trans g1, g2, g3, by rw [g4, dag_dir h.dir], g5, g6.trans hs1, g7, g8, ?_⟩
  intro l hl
  obtain ⟨q, hq, hx⟩ := g9 l hl
  have : ∀ (l : List (Ord2Block K × Fac R K)) (cs : List Nat), List.Forall₂ (fun (p : Ord2Block K × Fac R K) c => c ≤ p.2.d.length ∧ ∀ x ∈ p.2.d.take c, t.lower < x) l cs →
      ∀ q ∈ triples l cs, ∀ x ∈ q.2.1.d.take q.2.2, t.lower < x := by
    intro l cs hf
    induction hf with
    | nil => intro q hq; simp [triples] at hq
    | @cons p c l cs hp _ ih =>
      intro q hq
      obtain ⟨B, G⟩ := p
      simp only [triples, List.mem_cons] at hq
      rcases hq with rfl | hq
      · exact hp.2
      · exact ih q hq
  exact this fs cs hs3 q hq _ hx

end

/-! ## The exponential -/

section
variable {M : Verif.QN.Name → Int} {fuel : Nat} {herm : Nat → (Nat → Nat → ℂ) → HFac ℝ ℂ} {tr : Bool} {ai : Index} {pd : Int} {H : QDense ℂ}

/-- The matrix. -/
noncomputable def matH (tr : Bool) (ai : Index) (pd : Int) (H : QDense ℂ) : Matrix (Fin ai.dim) (Fin ai.dim) ℂ := Matrix.of fun i j => elA tr ai (ai.dag.prime pd) H i.1 j.1

/-- **C78 (partial).** If every diagonal block is stored, the elements of `expHermitian(H,t)` are those of the exponential of `t` times the matrix. -/
theorem C78_exp_partial (h : HermOK M fuel herm tr ai pd H) (hall : ∀ a < ai.nblock, ∃ o ∈ H.offsets, o.block = [a, a]) (eps : ℝ) (id : Nat) (tg : TagSet) :
    ∃ out, diagQN fuel herm eps none id tg (if tr then [ai.dag.prime pd, ai] else [ai, ai.dag.prime pd]) ai pd H = some (.ok out) ∧
      ∀ (t : ℂ) (i j : Fin ai.dim), expElem (fun x : ℝ => Complex.exp (t * x)) ai out i.1 j.1 = NormedSpace.exp (t • matH tr ai pd H) i j := by
  obtain ⟨out, Ue, De, g1, _, _, _, _, g7, g8, g9, g10, _⟩ := C78_diag h eps id tg
  obtain ⟨hdim, hrows⟩ := g10 hall
  refine ⟨out, g1, fun t i j => ?_⟩
  let W : Matrix (Fin ai.dim) (Fin ai.dim) ℂ := Matrix.of fun i l => star (Ue i l)
  have hW' : W * W.conjTranspose = 1 := by
    ext i j
    rw [Matrix.mul_apply, Matrix.one_apply]
    have := hrows i.1 i.2 j.1 j.2
    rw [hdim, ← Fin.sum_univ_eq_sum_range (fun l => star (Ue i.1 l) * Ue j.1 l)] at this
    simp only [Matrix.conjTranspose_apply, W, Matrix.of_apply, star_star, Fin.ext_iff]
    exact this
  have hW : W.conjTranspose * W = 1 := mul_eq_one_comm.1 hW'
  let w : (Matrix (Fin ai.dim) (Fin ai.dim) ℂ)ˣ := ⟨W, W.conjTranspose, hW', hW⟩
  have hH : t • matH tr ai pd H = (w : Matrix (Fin ai.dim) (Fin ai.dim) ℂ) * Matrix.diagonal (fun l : Fin ai.dim => t * (De l.1 : ℂ)) * ((w⁻¹ : (Matrix (Fin ai.dim) (Fin ai.dim) ℂ)ˣ) : Matrix (Fin ai.dim) (Fin ai.dim) ℂ) := by
    ext i j
    show t * elA tr ai (ai.dag.prime pd) H i.1 j.1 = (W * Matrix.diagonal (fun l : Fin ai.dim => t * (De l.1 : ℂ)) * W.conjTranspose) i j
    rw [Matrix.mul_apply, g9 i.1 i.2 j.1 j.2, hdim, ← Fin.sum_univ_eq_sum_range (fun l => star (Ue i.1 l) * algebraMap ℝ ℂ (De l) * Ue j.1 l), Finset.mul_sum]
    refine Finset.sum_congr rfl fun l _ => ?_
    simp only [Matrix.mul_diagonal, W, Matrix.of_apply, Matrix.conjTranspose_apply, star_star, Complex.coe_algebraMap]
    ring
  rw [hH, Matrix.exp_units_conj, Matrix.exp_diagonal]
  show _ = (W * Matrix.diagonal (NormedSpace.exp fun l : Fin ai.dim => t * (De l.1 : ℂ)) * W.conjTranspose) i j
  have hread : ∀ i < ai.dim, ∀ l < out.L.dim, readM out.U [ai.dag, out.L.dag] i l = Ue i l := by
    intro i hi l hl
    unfold readM
    rw [g8.readU i hi l hl]
  unfold expElem
  rw [← List.sum_toFinset _ List.nodup_range, List.toFinset_range, hdim, ← Fin.sum_univ_eq_sum_range (fun l => readM out.U [ai.dag, out.L.dag] j.1 l * Complex.exp (t * (out.D.data l : ℂ)) * star (readM out.U [ai.dag, out.L.dag] i.1 l)), Matrix.mul_apply]
  refine Finset.sum_congr rfl fun l _ => ?_
  rw [hread _ i.2 _ (by rw [hdim]; exact l.2), hread _ j.2 _ (by rw [hdim]; exact l.2), g7]
  simp only [Matrix.mul_diagonal, W, Matrix.of_apply, Matrix.conjTranspose_apply, star_star, Pi.coe_exp, ← Complex.exp_eq_exp_ℂ]
  ring

/-- **The exponential is wrong whenever a diagonal block is not stored**: its row there is zero, the matrix singular, for every `t`. A product of tensors stores
only the blocks to which blocks of the factors contribute: in the sum of `S+ S-` and `S- S+` on two sites the sectors with both spins up or both down have no block. -/
theorem C78_absent_counterexample (h : HermOK M fuel herm tr ai pd H) {a : Nat} (ha : a < ai.nblock) (habs : ∀ o ∈ H.offsets, o.block ≠ [a, a]) (eps : ℝ) (id : Nat) (tg : TagSet) :
    ∃ out, diagQN fuel herm eps none id tg (if tr then [ai.dag.prime pd, ai] else [ai, ai.dag.prime pd]) ai pd H = some (.ok out) ∧
      (∀ (f : ℝ → ℂ), ∀ x < bsize ai a, ∀ j < ai.dim, expElem f ai out (gl ai a x) j = 0) ∧
      ∀ t : ℂ, ∃ i j : Fin ai.dim, expElem (fun x : ℝ => Complex.exp (t * x)) ai out i.1 j.1 ≠ NormedSpace.exp (t • matH tr ai pd H) i j := by
  obtain ⟨out, Ue, De, g1, _, _, _, _, _, g8, _, _, g11⟩ := C78_diag h eps id tg
  have hz := g11 a ha habs
  have hgl : ∀ x < bsize ai a, gl ai a x < ai.dim := by
    intro x hx
    rw [h.dim]
    have h1 : a < (szs ai).length := by rw [szs_length]; exact ha
    have h2 : ((szs ai).take (a + 1)).sum ≤ (szs ai).sum := by
      conv_rhs => rw [← List.take_append_drop (a + 1) (szs ai), List.sum_append]
      exact Nat.le_add_right _ _
    rw [List.take_succ_eq_append_getElem h1, List.sum_append] at h2
    have h3 : bsize ai a = (szs ai)[a] := by rw [bsize, List.getD_eq_getElem?_getD, List.getElem?_eq_getElem h1]; rfl
    simp only [List.sum_cons, List.sum_nil, add_zero] at h2
    unfold gl
    omega
  have hzero : ∀ (f : ℝ → ℂ), ∀ x < bsize ai a, ∀ j < ai.dim, expElem f ai out (gl ai a x) j = 0 := by
    intro f x hx j _
    unfold expElem
    refine List.sum_eq_zero fun y hy => ?_
    obtain ⟨l, hl, rfl⟩ := List.mem_map.1 hy
    have hl := List.mem_range.1 hl
    have : readM out.U [ai.dag, out.L.dag] (gl ai a x) l = 0 := by
      unfold readM
      rw [g8.readU _ (hgl x hx) l hl]
      exact hz x hx l hl
    rw [this, star_zero, mul_zero]
  refine ⟨out, g1, hzero, fun t => ?_⟩
  by_contra hcon
  push Not at hcon
  have h0 : 0 < bsize ai a := bsize_pos h.pos ha
  have hu := (Matrix.isUnit_exp (t • matH tr ai pd H))
  rw [Matrix.isUnit_iff_isUnit_det] at hu
  have hdet : (NormedSpace.exp (t • matH tr ai pd H)).det = 0 := by
    refine Matrix.det_eq_zero_of_row_eq_zero ⟨gl ai a 0, hgl 0 h0⟩ fun j => ?_
    rw [← hcon]
    exact hzero _ 0 h0 j.1 j.2
  rw [hdet] at hu
  simp at hu

end

end Verif.Svd
