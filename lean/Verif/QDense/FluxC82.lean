import Verif.QDense.FluxLemmas

/-!
# Property C82: a tensor with quantum numbers has one flux
-/

namespace Verif.QDense

open Verif.Index (Index IndexSet)
open Verif.Index.IndexSet (keys prodInds computeLabels contractIS)
open Verif.Tensor
open Verif.Tensor.Permutation (IsPerm)
open Verif.QN (IsQN norm)
open Verif.Index.IndexSet (Key)

/-- The indices of a tensor: different, each with the sectors that belong to its identity (`env`: two
indices that compare equal have the same sectors), with arrows, with quantum numbers of at most four names. -/
structure GoodIs (M : Verif.QN.Name → Int) (u : List Verif.QN.Name) (env : Key → List (Verif.QN.QN × Nat))
    (is : IndexSet) : Prop where
  nodup : (keys is).Nodup
  env : ∀ I ∈ is, I.qns = env I.key
  pos : ∀ I ∈ is, ∀ s ∈ I.qns, 0 < s.2
  ne : ∀ I ∈ is, 0 < I.nblock
  dir : ∀ I ∈ is, I.dir = 1 ∨ I.dir = -1
  ok : SectorsOK M u is

/-- The invariant of a tensor. -/
structure Good {K : Type*} (M : Verif.QN.Name → Int) (u : List Verif.QN.Name) (env : Key → List (Verif.QN.QN × Nat))
    (fuel : Nat) (T : QTensor K) : Prop where
  inds : GoodIs M u env T.is
  small : T.store = none → (nb T.is).prod < fuel ∧ ((nb T.is).prod : Int) ≤ offMax
  wf : ∀ d, T.store = some d → WF T.is d.offsets d.size
  flux : ∀ d, T.store = some d → HasFlux M T.is d

/-- What a user reads of the flux: all elements which are not zero have the same flux, which is `div(T)`.  -/
def OneFlux {K : Type*} [CommRing K] (M : Verif.QN.Name → Int) (T : QTensor K) : Prop :=
  ∀ d, T.store = some d → ∃ div, calcDiv T.is d = .ok div ∧
    ∀ ind, Valid (T.is.map fun I => (I.qns.map (·.2)).sum) ind → ∀ x, getElt d T.is ind = .ok x → x ≠ 0 →
      ∀ n, norm (M n) (eltVal T.is ind n) = div.val n

section
variable {K : Type*} [CommRing K]
variable {M : Verif.QN.Name → Int} {u : List Verif.QN.Name} {env : Key → List (Verif.QN.QN × Nat)} {fuel : Nat}

omit [CommRing K] in
/-- `div(T)` is the flux of every block. -/
theorem Good.calcDiv {T : QTensor K} (h : Good M u env fuel T) {d : QDense K} (hd : T.store = some d) :
    ∃ div, calcDiv T.is d = .ok div ∧ IsQN M div ∧
      ∀ o ∈ d.offsets, ∀ n, norm (M n) (fluxVal T.is o.block n) = div.val n := by
  by_cases hne : T.is = []
  · refine ⟨Verif.QN.QN.default, by rw [hne]; simp [QDense.calcDiv], Verif.QN.isQN_default M, ?_⟩
    intro o ho n
    have h0 : (Verif.QN.QN.default).val n = 0 := by rw [(Verif.QN.WF.default M).val]; rfl
    rw [hne, h0]; simp [fluxVal]
  · exact calcDiv_ok h.inds.ok (h.wf d hd) hne (h.flux d hd)

theorem Good.oneFlux {T : QTensor K} (h : Good M u env fuel T) : OneFlux M T := by
  intro d hd
  obtain ⟨div, h1, _, h3⟩ := h.calcDiv hd
  refine ⟨div, h1, ?_⟩
  intro ind hi x hx hx0 n
  obtain ⟨b, w, hb, hw, rfl⟩ := exists_glue hi
  rw [eltVal_glue hb hw]
  by_cases hm : b ∈ d.offsets.map (·.block)
  · obtain ⟨o, ho, rfl⟩ := List.mem_map.1 hm
    exact h3 o ho n
  · rw [getElt_glue (h.wf d hd) hb hw, elem_zero_of_notMem (h.wf d hd) hb hm] at hx
    exact absurd (by cases hx; rfl) hx0

omit [CommRing K] in
/-- All blocks having the flux `div` is what the invariant asks. -/
theorem hasFlux_of {is : IndexSet} {d : QDense K} {f : Verif.QN.Name → Int}
    (h : ∀ o ∈ d.offsets, ∀ n, norm (M n) (fluxVal is o.block n) = f n) : HasFlux M is d :=
  fun o ho o' ho' n => (h o ho n).trans (h o' ho' n).symm

/-! ## Setting an element -/

/-- **C82, `set` with an argument per index.** On a tensor with storage it throws exactly when the flux of
the element is not `div(T)`; otherwise the element is written and the tensor still has one flux, that is the
same. -/
theorem C82_set [DecidableEq K] {T : QTensor K} (h : Good M u env fuel T) {d : QDense K} (hd : T.store = some d) {ind : List Nat}
    (hi : Valid (T.is.map fun I => (I.qns.map (·.2)).sum) ind) (v : K) :
    ∃ div, calcDiv T.is d = .ok div ∧
      ((∀ n, norm (M n) (eltVal T.is ind n) = div.val n) →
        ∃ d', setVals fuel T ind v = some (.ok ⟨T.is, some d'⟩) ∧ Good M u env fuel ⟨T.is, some d'⟩ ∧
          getElt d' T.is ind = .ok v ∧ ∀ o ∈ d'.offsets, ∀ n, norm (M n) (fluxVal T.is o.block n) = div.val n) ∧
      ((∃ n, norm (M n) (eltVal T.is ind n) ≠ div.val n) → setVals fuel T ind v = some .throw) := by
  obtain ⟨div, h1, h2, h3⟩ := h.calcDiv hd
  refine ⟨div, h1, ?_⟩
  obtain ⟨b, w, hb, hw, rfl⟩ := exists_glue hi
  obtain ⟨k1, k2⟩ := fluxOf_default h.inds.ok hb
  have hlen : (glue T.is b w).length = T.is.length := glue_length hb hw
  have hst : storeFor fuel T (glue T.is b w) = some (.ok d) := by unfold storeFor; rw [hd]
  have hck : checkEltFlux T.is d (glue T.is b w) =
      if (fluxOf T.is b Verif.QN.QN.default).eq div then .ok () else .throw := by
    unfold checkEltFlux
    rw [eltFlux_glue hb hw, Res.bind_ok, h1, Res.bind_ok]
  have heq : (fluxOf T.is b Verif.QN.QN.default).eq div = true ↔
      ∀ n, norm (M n) (eltVal T.is (glue T.is b w) n) = div.val n := by
    rw [Verif.QN.C07_eq_iff k1 h2]
    refine forall_congr' fun n => ?_
    rw [k2, eltVal_glue hb hw]
  unfold setVals
  rw [if_neg (by simpa using hlen), hst, Run.bind_ok, hck]
  constructor
  · intro hf
    rw [if_pos (heq.2 hf)]
    obtain ⟨d', g1, g2, g3, g4⟩ := setElt_glue (h.wf d hd) hb hw v
    have hfl : ∀ o ∈ d'.offsets, ∀ n, norm (M n) (fluxVal T.is o.block n) = div.val n := by
      intro o ho n
      rcases (g3 o.block).1 ⟨o, ho, rfl⟩ with e | ⟨x, hx, e⟩
      · rw [e, ← eltVal_glue hb hw]; exact hf n
      · rw [← e]; exact h3 x hx n
    refine ⟨d', ?_, ⟨h.inds, by simp, ?_, ?_⟩, ?_, hfl⟩
    · rw [g1]; rfl
    · intro e he; cases he; exact g2
    · intro e he; cases he; exact hasFlux_of hfl
    · rw [getElt_glue g2 hb hw, g4 b w hb hw, if_pos ⟨rfl, rfl⟩]
  · intro hf
    rw [if_neg (by
      intro e
      obtain ⟨n, hn⟩ := hf
      exact hn (heq.1 e n))]
    rfl

/-- **C82, the first element.** On a tensor without storage `set` allocates the blocks with the flux of
the element and does not throw. -/
theorem C82_set_first [DecidableEq K] {T : QTensor K} (h : Good M u env fuel T) (hd : T.store = none) (hne : T.is ≠ []) {ind : List Nat}
    (hi : Valid (T.is.map fun I => (I.qns.map (·.2)).sum) ind) (v : K) :
    ∃ d', setVals fuel T ind v = some (.ok ⟨T.is, some d'⟩) ∧ Good M u env fuel ⟨T.is, some d'⟩ ∧
      getElt d' T.is ind = .ok v ∧
      ∀ o ∈ d'.offsets, ∀ n, norm (M n) (fluxVal T.is o.block n) = norm (M n) (eltVal T.is ind n) := by
  obtain ⟨b, w, hb, hw, rfl⟩ := exists_glue hi
  obtain ⟨k1, k2⟩ := fluxOf_default h.inds.ok hb
  obtain ⟨hs1, hs2⟩ := h.small hd
  obtain ⟨d, g1, g2, _, g4⟩ := C21_ofDiv (K := K) hne h.inds.ne h.inds.ok k1 fuel hs1 hs2
  have hfl : ∀ o ∈ d.offsets, ∀ n, norm (M n) (fluxVal T.is o.block n) = norm (M n) (fluxVal T.is b n) := by
    intro o ho n
    rw [((g4 o.block).1 ⟨o, ho, rfl⟩).2 n, k2]
  have hG : Good M u env fuel (⟨T.is, some d⟩ : QTensor K) := ⟨h.inds, by simp, by
    intro e he; cases he; exact g2, by intro e he; cases he; exact hasFlux_of hfl⟩
  have hst : setVals fuel T (glue T.is b w) v = setVals fuel ⟨T.is, some d⟩ (glue T.is b w) v := by
    unfold setVals storeFor allocElt
    rw [hd]
    dsimp only
    rw [eltFlux_glue hb hw]
    simp only [Run.lift, Run.bind_ok, g1]
  rw [hst]
  obtain ⟨div, p1, p2, _⟩ := C82_set hG rfl hi v
  obtain ⟨o0, ho0, e0⟩ := (g4 b).2 ⟨by
    have := hb
    unfold Valid nb at this
    rw [List.forall₂_map_right_iff] at this
    exact this, fun n => by rw [k2]⟩
  have hdiv : ∀ n, div.val n = norm (M n) (fluxVal T.is b n) := by
    obtain ⟨div', q1, _, q3⟩ := hG.calcDiv rfl
    intro n
    have : div' = div := by
      have := q1.symm.trans p1
      cases this; rfl
    rw [← this, ← q3 o0 ho0 n, e0]
  obtain ⟨d', r1, r2, r3, r4⟩ := p2 fun n => by rw [hdiv, eltVal_glue hb hw]
  refine ⟨d', r1, r2, r3, fun o ho n => ?_⟩
  rw [r4 o ho n, hdiv, eltVal_glue hb hw]

/-! ## Addition -/

theorem checkArrows_iff {is1 is2 : IndexSet} (h1 : ∀ I ∈ is1, 0 < I.nblock) (h2 : ∀ I ∈ is2, 0 < I.nblock)
    (m : Bool) : checkArrows is1 is2 m = true ↔ ∀ I ∈ is1, ∀ J ∈ is2, I.key = J.key →
      (m = true ↔ I.dir = J.dir) := by
  have hq : ∀ is : IndexSet, (∀ I ∈ is, 0 < I.nblock) → is ≠ [] → Verif.Index.IndexSet.hasQNs is = true := by
    intro is h hne
    obtain ⟨I, is', rfl⟩ := List.exists_cons_of_ne_nil hne
    unfold Verif.Index.IndexSet.hasQNs
    have := h I (by simp)
    simp [Index.hasQNs]
    left; omega
  by_cases e1 : is1 = []
  · subst e1; simp [checkArrows]
  by_cases e2 : is2 = []
  · subst e2; simp [checkArrows]
  unfold checkArrows
  rw [hq is1 h1 e1, hq is2 h2 e2]
  simp only [Bool.and_self, Bool.not_true, Bool.false_or, List.all_eq_true, Bool.or_eq_true, Bool.not_eq_true']
  constructor
  · intro h I hI J hJ e
    rcases h I hI J hJ with g | g
    · rw [Verif.Index.Index.eq_iff.2 e] at g; cases g
    · cases m <;> simp_all
  · intro h I hI J hJ
    by_cases e : I.key = J.key
    · right
      have := h I hI J hJ e
      cases m <;> simp_all
    · left
      have : ¬ (I.eq J = true) := fun g => e (Verif.Index.Index.eq_iff.1 g)
      simpa using this

theorem hasQNs_good {is : IndexSet} (h : GoodIs M u env is) (hne : is ≠ []) :
    Verif.Index.IndexSet.hasQNs is = true := by
  obtain ⟨I, is', rfl⟩ := List.exists_cons_of_ne_nil hne
  unfold Verif.Index.IndexSet.hasQNs
  have := h.ne I (by simp)
  simp [Index.hasQNs]
  left; omega

/-- The permutation found by `calcPerm`. -/
theorem calcPerm_match {is1 is2 : IndexSet} (h1 : GoodIs M u env is1) (h2 : GoodIs M u env is2)
    (hl : is1.length = is2.length) {P : Permutation}
    (hP : Permutation.calcPerm (is2.map Index.key) (is1.map Index.key) = .ok P) :
    (keys is1).Perm (keys is2) ∧ Match P is1 is2 ∧
      ∀ (i d : Nat) (I J : Index), P[i]? = some d → is1[d]? = some I → is2[i]? = some J → I.key = J.key := by
  have hsub : keys is1 ⊆ keys is2 := by
    intro x hx
    by_contra hn
    rw [C16_calcPerm_throws (is2.map Index.key) (is1.map Index.key) x hx hn] at hP
    cases hP
  have hp : (keys is1).Perm (keys is2) :=
    (List.subperm_of_subset h1.nodup hsub).perm_of_length_le (by simp [keys, hl])
  obtain ⟨P', hP1, hP2, hP3, hP4⟩ := C16_calcPerm (keys is2) (keys is1) hp.symm h2.nodup
  have hPP : P' = P := by
    have := hP1.symm.trans hP
    cases this; rfl
  subst hPP
  have hkey : ∀ (i d : Nat) (I J : Index), P'[i]? = some d → is1[d]? = some I → is2[i]? = some J → I.key = J.key := by
    intro i d I J hi hI hJ
    have := hP4 i d hi
    simp only [keys, List.getElem?_map, hI, hJ] at this
    simpa using this
  refine ⟨hp, ⟨hP2, by rw [hP3]; simp [keys, hl], by rw [hP3]; simp [keys], ?_⟩, hkey⟩
  intro i d I J hi hI hJ
  have e := hkey i d I J hi hI hJ
  unfold szs
  rw [h1.env I (List.mem_of_getElem? hI), h2.env J (List.mem_of_getElem? hJ), e]

/-- Adding keeps the invariant, whenever it does not throw; a result with blocks has the flux of `R` or is
`L`. -/
theorem daxpyT_good [DecidableEq K] {L R : QTensor K} (hL : Good M u env fuel L) (hR : Good M u env fuel R) {A B A' : QDense K}
    (hA : L.store = some A) (hB : R.store = some B) (alpha : K)
    (hrun : daxpyT fuel L.is R.is alpha A B = some (.ok A')) : Good M u env fuel (⟨L.is, some A'⟩ : QTensor K) := by
  unfold daxpyT at hrun
  split at hrun
  · cases hrun
  rename_i hlen
  have hlen' : L.is.length = R.is.length := by simpa using hlen
  split at hrun
  · cases hrun
    refine ⟨hL.inds, by simp, ?_, ?_⟩
    · intro e he; cases he; exact hL.wf _ hA
    · intro e he; cases he; exact hL.flux _ hA
  obtain ⟨_, hdv, hrun⟩ := Run.bind_eq_ok.1 hrun
  obtain ⟨P, hP, hrun⟩ := Run.bind_eq_ok.1 hrun
  rw [Run.lift_eq_ok] at hdv hP
  split at hrun
  swap
  · cases hrun
  rename_i har
  obtain ⟨hperm, hmatch, hkey⟩ := calcPerm_match hL.inds hR.inds hlen' hP
  obtain ⟨g1, g2⟩ := plusEq_blocks hmatch (hL.wf _ hA) (hR.wf _ hB) alpha hrun
  rw [checkArrows_iff hL.inds.ne hR.inds.ne] at har
  obtain ⟨q1, a1, a2, a3⟩ := hL.calcDiv hA
  obtain ⟨q2, b1, b2, b3⟩ := hR.calcDiv hB
  have hqq : ∀ n, q1.val n = q2.val n := by
    by_cases hne : L.is = []
    · have hne2 : R.is = [] := by
        rw [hne] at hlen'; exact List.length_eq_zero_iff.1 hlen'.symm
      rw [hne] at a1; rw [hne2] at b1
      simp only [QDense.calcDiv, Res.ok.injEq] at a1 b1
      intro n; rw [← a1, ← b1]
    · have hne2 : R.is ≠ [] := by
        intro e; rw [e] at hlen'; exact hne (List.length_eq_zero_iff.1 hlen')
      unfold checkSameDiv at hdv
      rw [hasQNs_good hL.inds hne, hasQNs_good hR.inds hne2, Bool.and_self, if_pos rfl, a1, Res.bind_ok, b1,
        Res.bind_ok] at hdv
      by_cases e : q1.eq q2 = true
      · exact (Verif.QN.C07_eq_iff a2 b2).1 e
      · rw [if_neg e] at hdv; cases hdv
  refine ⟨hL.inds, by simp, ?_, ?_⟩
  · intro e he; cases he; exact g1
  · intro e he; cases he
    refine hasFlux_of (f := fun n => q1.val n) fun o ho n => ?_
    rcases g2 o ho with ⟨a, ha, e⟩ | ⟨b, hb, e⟩
    · show norm (M n) (fluxVal L.is _ n) = _
      rw [e]; exact a3 a ha n
    · show norm (M n) (fluxVal L.is _ n) = _
      rw [← fluxVal_match hmatch (b := o.block) (by
        intro i d I J hi hI hJ
        have hk := hkey i d I J hi hI hJ
        have mI := List.mem_of_getElem? hI
        have mJ := List.mem_of_getElem? hJ
        exact ⟨by rw [hL.inds.env I mI, hR.inds.env J mJ, hk], ((har I mI J mJ hk).1 rfl).symm⟩) (g1.valid o ho) n, e,
        b3 b hb n, hqq]

/-- **C82, addition.** Two tensors with storage and the same indices, the right one with at least one
block: `L += R` (or `L -= R`) throws exactly when `div(L)` and `div(R)` differ or an index has different
arrows; otherwise it ends and the sum has one flux, that is `div(L) = div(R)`. -/
theorem C82_add [DecidableEq K] {L R : QTensor K} (hL : Good M u env fuel L) (hR : Good M u env fuel R) {A B : QDense K}
    (hA : L.store = some A) (hB : R.store = some B) (hne : L.is ≠ []) (hb0 : B.offsets ≠ [])
    (hkeys : (keys L.is).Perm (keys R.is)) (hf : A.size + B.size < fuel) (hmax : ((A.size + B.size : Nat) : Int) ≤ offMax)
    {qL qR : Verif.QN.QN} (hqL : calcDiv L.is A = .ok qL) (hqR : calcDiv R.is B = .ok qR) :
    (((∀ n, qL.val n = qR.val n) ∧ ∀ I ∈ L.is, ∀ J ∈ R.is, I.key = J.key → I.dir = J.dir) →
      ∃ A', plusT fuel L R = some (.ok ⟨L.is, some A'⟩) ∧ Good M u env fuel (⟨L.is, some A'⟩ : QTensor K) ∧
        ∀ o ∈ A'.offsets, ∀ n, norm (M n) (fluxVal L.is o.block n) = qL.val n) ∧
    (((∃ n, qL.val n ≠ qR.val n) ∨ ∃ I ∈ L.is, ∃ J ∈ R.is, I.key = J.key ∧ I.dir ≠ J.dir) →
      plusT fuel L R = some .throw) := by
  have hlen : L.is.length = R.is.length := by have := hkeys.length_eq; simpa [keys] using this
  have hne2 : R.is ≠ [] := by
    intro e; rw [e] at hlen; exact hne (List.length_eq_zero_iff.1 hlen)
  obtain ⟨q1, a1, a2, a3⟩ := hL.calcDiv hA
  obtain ⟨q2, b1, b2, b3⟩ := hR.calcDiv hB
  obtain rfl : q1 = qL := by have := a1.symm.trans hqL; cases this; rfl
  obtain rfl : q2 = qR := by have := b1.symm.trans hqR; cases this; rfl
  obtain ⟨P, hP1, _⟩ := C16_calcPerm (keys R.is) (keys L.is) hkeys.symm hR.inds.nodup
  have hP : Permutation.calcPerm (R.is.map Index.key) (L.is.map Index.key) = .ok P := hP1
  obtain ⟨_, hmatch, hkey⟩ := calcPerm_match hL.inds hR.inds hlen hP
  have hnn : nnzblocks R.is B ≠ 0 := by
    unfold nnzblocks
    rw [hasQNs_good hR.inds hne2, if_pos rfl]
    simpa using hb0
  have hcd : checkSameDiv L.is R.is A B = if q1.eq q2 then .ok () else .throw := by
    unfold checkSameDiv
    rw [hasQNs_good hL.inds hne, hasQNs_good hR.inds hne2, Bool.and_self, if_pos rfl, a1, Res.bind_ok, b1,
      Res.bind_ok]
  have hunf : daxpyT fuel L.is R.is 1 A B = Run.bind (Run.lift (if q1.eq q2 then Res.ok () else Res.throw)) fun _ =>
      if checkArrows L.is R.is true then plusEq fuel P L.is R.is 1 A B else some .throw := by
    unfold daxpyT
    rw [if_neg (by simpa using hlen), if_neg hnn, hcd, hP]
    rfl
  have hpl : plusT fuel L R = Run.bind (daxpyT fuel L.is R.is 1 A B) fun A' => some (.ok ⟨L.is, some A'⟩) := by
    unfold plusT; rw [hA, hB]
  constructor
  · rintro ⟨hq, har⟩
    have e1 : q1.eq q2 = true := (Verif.QN.C07_eq_iff a2 b2).2 hq
    have e2 : checkArrows L.is R.is true = true := by
      rw [checkArrows_iff hL.inds.ne hR.inds.ne]
      exact fun I hI J hJ e => ⟨fun _ => har I hI J hJ e, fun _ => rfl⟩
    obtain ⟨A', p1, p2, _⟩ := plusEq_spec hne hmatch (by
      intro I hI s hs
      obtain ⟨q, hq, rfl⟩ := List.mem_map.1 hs
      exact hL.inds.pos I hI q hq) (hL.wf _ hA) (hR.wf _ hB) 1 hf hmax
    have hrun : daxpyT fuel L.is R.is 1 A B = some (.ok A') := by
      rw [hunf, e1, e2]
      simpa [Run.lift] using p1
    have hG := daxpyT_good hL hR hA hB 1 hrun
    refine ⟨A', by rw [hpl, hrun]; rfl, hG, fun o ho n => ?_⟩
    obtain ⟨_, g2⟩ := plusEq_blocks hmatch (hL.wf _ hA) (hR.wf _ hB) 1 p1
    rcases g2 o ho with ⟨a, ha, e⟩ | ⟨b, hb, e⟩
    · rw [e]; exact a3 a ha n
    · rw [← fluxVal_match hmatch (b := o.block) (by
        intro i d I J hi hI hJ
        have hk := hkey i d I J hi hI hJ
        have mI := List.mem_of_getElem? hI
        have mJ := List.mem_of_getElem? hJ
        exact ⟨by rw [hL.inds.env I mI, hR.inds.env J mJ, hk], (har I mI J mJ hk).symm⟩) (p2.valid o ho) n, e,
        b3 b hb n, hq]
  · intro hor
    rw [hpl, hunf]
    rcases hor with ⟨n, hn⟩ | ⟨I, hI, J, hJ, e, hd⟩
    · rw [if_neg (fun e => hn ((Verif.QN.C07_eq_iff a2 b2).1 e n))]
      rfl
    · by_cases e1 : q1.eq q2 = true
      · rw [if_pos e1]
        have e2 : ¬ checkArrows L.is R.is true = true := by
          rw [checkArrows_iff hL.inds.ne hR.inds.ne]
          intro hc
          exact hd ((hc I hI J hJ e).1 rfl)
        simp [Run.lift, e2]
      · rw [if_neg e1]; rfl

/-! ## Products -/

theorem contractQ_wf [DecidableEq K] {Lis Ris : IndexSet} (hL : GoodIs M u env Lis) (hR : GoodIs M u env Ris)
    (hneL : Lis ≠ []) (hneR : Ris ≠ [])
    (order : List Task → List Task) {A B : QDense K} (hA : WF Lis A.offsets A.size)
    (hB : WF Ris B.offsets B.size) (fuel : Nat) (mem junk : Int → K) {C : QDense K} {N : List (Index × Int)}
    (hrun : contractQ order fuel Lis Ris A B mem junk = some (.ok (C, N))) :
    N.map (·.1) = Lis.filter (fun i => i.key ∉ keys Ris) ++ Ris.filter (fun i => i.key ∉ keys Lis) ∧
      WF (N.map (·.1)) C.offsets C.size := by
  have hq : Verif.Index.IndexSet.hasQNs Lis = Verif.Index.IndexSet.hasQNs Ris := by
    rw [hasQNs_good hL hneL, hasQNs_good hR hneR]
  have hpS : ∀ X : IndexSet, GoodIs M u env X → PosSectors X := by
    intro X hX I hI s hs
    obtain ⟨q, hq, rfl⟩ := List.mem_map.1 hs
    exact hX.pos I hI q hq
  obtain ⟨lab, sz, eA, eB, hinj, hprod, hsz, hp⟩ := exists_pctx hL.nodup hR.nodup hq
    (fun I hI J hJ e => by unfold szs; rw [hL.env I hI, hR.env J hJ, e]) (hpS Lis hL) (hpS Ris hR)
  set Nis := Lis.filter (fun i => i.key ∉ keys Ris) ++ Ris.filter (fun i => i.key ∉ keys Lis) with hN
  have hN1 : (prodInds Lis Ris).map (·.1) = Nis := by rw [hprod, List.map_map]; simp [Function.comp_def]
  have hpi : contractIS Lis Ris (computeLabels Lis Ris).1 (computeLabels Lis Ris).2.1 = prodInds Lis Ris := rfl
  have hbA : ∀ a ∈ A.offsets.map (·.block), Valid (nb Lis) a := by
    intro a ha; obtain ⟨o, ho, rfl⟩ := List.mem_map.1 ha; exact hA.valid o ho
  have hbB : ∀ a ∈ B.offsets.map (·.block), Valid (nb Ris) a := by
    intro a ha; obtain ⟨o, ho, rfl⟩ := List.mem_map.1 ha; exact hB.valid o ho
  unfold contractQ at hrun
  dsimp only at hrun
  rw [hpi, hN1] at hrun
  unfold getContractedOffsets at hrun
  rw [hp.src] at hrun
  simp only [Res.bind_ok] at hrun
  generalize hts : tasks Lis Ris _ (A.offsets.map (·.block)) (B.offsets.map (·.block)) = ts at hrun
  obtain ⟨Coff, Csize, hu1, hu2, hC⟩ := uoLoop_wf (is := Nis) (uniqBlocks_sorted _ (sortBlocks_le (ts.map (·.c))))
    (by
      intro c hc
      rw [uniqBlocks_mem, (sortBlocks_perm _).mem_iff] at hc
      obtain ⟨t, ht, rfl⟩ := List.mem_map.1 hc
      rw [← hts] at ht
      obtain ⟨β, hv, h1, h2, rfl⟩ := (hp.mem_tasks hbA hbB).1 ht
      show Valid (nb Nis) ((Nis.map fun i => lab i.key).map β)
      rw [hp.labN.nb, valid_map]
      exact fun x hx => hv x (hp.cmem hx))
  rw [hu1] at hrun
  simp only [Res.bind_ok] at hrun
  obtain ⟨s, _, hs⟩ := Run.bind_eq_ok.1 hrun
  cases hs
  exact ⟨hN1, by rw [hN1]; exact hC⟩

/-- **C82, products.** If `L *= R` ends for two tensors with indices, the result has one flux, the sum of
those of `L` and `R`. -/
theorem C82_mul [DecidableEq K] {L R : QTensor K} (hL : Good M u env fuel L) (hR : Good M u env fuel R) {A B : QDense K}
    (hA : L.store = some A) (hB : R.store = some B) (hneL : L.is ≠ []) (hneR : R.is ≠ [])
    (order : List Task → List Task) (mem junk : Int → K) {T : QTensor K}
    (hrun : timesT order fuel mem junk L R = some (.ok T)) :
    Good M u env fuel T ∧ ∃ C qL qR, T.store = some C ∧ calcDiv L.is A = .ok qL ∧ calcDiv R.is B = .ok qR ∧
      ∀ o ∈ C.offsets, ∀ n, norm (M n) (fluxVal T.is o.block n) = norm (M n) (qL.val n + qR.val n) := by
  unfold timesT at hrun
  rw [hA, hB] at hrun
  dsimp only at hrun
  rw [if_neg hneL, if_neg hneR] at hrun
  split at hrun
  swap
  · cases hrun
  rename_i har
  rw [checkArrows_iff hL.inds.ne hR.inds.ne] at har
  obtain ⟨⟨C, N⟩, hc, hT⟩ := Run.bind_eq_ok.1 hrun
  cases hT
  obtain ⟨w1, w2⟩ := contractQ_wf hL.inds hR.inds hneL hneR order (hL.wf _ hA) (hR.wf _ hB) fuel mem junk hc
  have hfl := C24_flux hL.inds.nodup hR.inds.nodup (by rw [hasQNs_good hL.inds hneL, hasQNs_good hR.inds hneR])
    (by
      intro I hI J hJ e
      refine ⟨by rw [hL.inds.env I hI, hR.inds.env J hJ, e], ?_⟩
      have := har I hI J hJ e
      have hd : I.dir ≠ J.dir := fun e => by simpa using this.2 e
      have hdL := hL.inds.dir I hI
      have hdR := hR.inds.dir J hJ
      omega)
    (by rintro I (hI | hI)
        · exact hL.inds.pos I hI
        · exact hR.inds.pos I hI) order (hL.wf _ hA) (hR.wf _ hB) fuel mem junk hc
  obtain ⟨qL, a1, a2, a3⟩ := hL.calcDiv hA
  obtain ⟨qR, b1, b2, b3⟩ := hR.calcDiv hB
  have hflux : ∀ o ∈ C.offsets, ∀ n, norm (M n) (fluxVal (N.map (·.1)) o.block n) = norm (M n) (qL.val n + qR.val n) := by
    intro o ho n
    obtain ⟨a, ha, b, hb, e⟩ := hfl o ho
    rw [e n, ← a3 a ha n, ← b3 b hb n, Verif.QN.norm_add_norm_left, Verif.QN.norm_add_norm_right]
  have hmem : ∀ I ∈ N.map (·.1), I ∈ L.is ∨ I ∈ R.is := by
    intro I hI
    rw [w1] at hI
    rcases List.mem_append.1 hI with h | h
    · exact Or.inl (List.mem_filter.1 h).1
    · exact Or.inr (List.mem_filter.1 h).1
  have hgi : GoodIs M u env (N.map (·.1)) := by
    refine ⟨?_, ?_, ?_, ?_, ?_, hL.inds.ok.1, ?_⟩
    · rw [w1]
      unfold keys
      rw [List.map_append, List.nodup_append]
      refine ⟨?_, ?_, ?_⟩
      · exact (List.Sublist.map _ List.filter_sublist).nodup hL.inds.nodup
      · exact (List.Sublist.map _ List.filter_sublist).nodup hR.inds.nodup
      · intro a ha b hb e
        obtain ⟨I, hI, rfl⟩ := List.mem_map.1 ha
        obtain ⟨J, hJ, rfl⟩ := List.mem_map.1 hb
        have h1 := (List.mem_filter.1 hI).2
        have h2 := (List.mem_filter.1 hJ).1
        simp only [decide_eq_true_eq] at h1
        exact h1 (by rw [e]; exact List.mem_map_of_mem h2)
    · intro I hI; rcases hmem I hI with h | h
      · exact hL.inds.env I h
      · exact hR.inds.env I h
    · intro I hI; rcases hmem I hI with h | h
      · exact hL.inds.pos I h
      · exact hR.inds.pos I h
    · intro I hI; rcases hmem I hI with h | h
      · exact hL.inds.ne I h
      · exact hR.inds.ne I h
    · intro I hI; rcases hmem I hI with h | h
      · exact hL.inds.dir I h
      · exact hR.inds.dir I h
    · intro I hI; rcases hmem I hI with h | h
      · exact hL.inds.ok.2 I h
      · exact hR.inds.ok.2 I h
  refine ⟨⟨hgi, by simp, ?_, ?_⟩, C, qL, qR, rfl, a1, b1, hflux⟩
  · intro e he; cases he; exact w2
  · intro e he; cases he; exact hasFlux_of hflux

/-- **C82, `dag`.** The conjugate has one flux, the negative. -/
theorem C82_dag [DecidableEq K] {T T' : QTensor K} (hT : Good M u env fuel T) {cj : K → K} {d : QDense K} (hd : T.store = some d)
    (hrun : dagT cj T = some (.ok T')) :
    Good M u env fuel T' ∧ ∃ d' q, T'.store = some d' ∧ calcDiv T.is d = .ok q ∧
      ∀ o ∈ d'.offsets, ∀ n, norm (M n) (fluxVal T'.is o.block n) = norm (M n) (- q.val n) := by
  unfold dagT at hrun
  rw [hd] at hrun
  cases hrun
  obtain ⟨q, a1, a2, a3⟩ := hT.calcDiv hd
  have hflux : ∀ o ∈ d.offsets, ∀ n, norm (M n) (fluxVal (T.is.map Index.dag) o.block n) = norm (M n) (- q.val n) := by
    intro o ho n
    rw [fluxVal_dag hT.inds.dir, ← a3 o ho n, Verif.QN.norm_neg_norm]
  have hW : WF (T.is.map Index.dag) d.offsets d.size := by
    have hnb : nb (T.is.map Index.dag) = nb T.is := by
      unfold nb; rw [List.map_map]; rfl
    have hbd : ∀ b, bdim (T.is.map Index.dag) b = bdim T.is b := by
      intro b; unfold bdim bext; rw [List.zipWith_map_left]; rfl
    have ht : ∀ (l : List BlOf) (s e : Nat), Tile T.is l s e → Tile (T.is.map Index.dag) l s e := by
      intro l
      induction l with
      | nil => intro s e h; exact h
      | cons o l ih => intro s e h; exact ⟨h.1, by rw [hbd]; exact ih _ _ h.2⟩
    exact ⟨(hT.wf d hd).sorted, by rw [hnb]; exact (hT.wf d hd).valid, ht _ _ _ (hT.wf d hd).tile⟩
  have hi := hT.inds
  refine ⟨⟨⟨?_, ?_, ?_, ?_, ?_, hi.ok.1, ?_⟩, by simp, ?_, ?_⟩, _, q, rfl, a1, hflux⟩
  · have : keys (T.is.map Index.dag) = keys T.is := by unfold keys; rw [List.map_map]; rfl
    show (keys (T.is.map Index.dag)).Nodup
    rw [this]; exact hi.nodup
  · intro I hI; obtain ⟨J, hJ, rfl⟩ := List.mem_map.1 hI; exact hi.env J hJ
  · intro I hI; obtain ⟨J, hJ, rfl⟩ := List.mem_map.1 hI; exact hi.pos J hJ
  · intro I hI; obtain ⟨J, hJ, rfl⟩ := List.mem_map.1 hI; exact hi.ne J hJ
  · intro I hI; obtain ⟨J, hJ, rfl⟩ := List.mem_map.1 hI
    rcases hi.dir J hJ with e | e <;> simp [Index.dag, e]
  · intro I hI; obtain ⟨J, hJ, rfl⟩ := List.mem_map.1 hI; exact hi.ok.2 J hJ
  · intro e he; cases he; exact hW
  · intro e he; cases he; exact hasFlux_of hflux

/-! ## All programs -/

theorem scaleT_good [DecidableEq K] {T T' : QTensor K} (hT : Good M u env fuel T) {z : K}
    (hrun : scaleT T z = some (.ok T')) : Good M u env fuel T' := by
  unfold scaleT at hrun
  split at hrun
  · rename_i d hd
    cases hrun
    exact ⟨hT.inds, by simp, by intro e he; cases he; exact hT.wf d hd, by
      intro e he; cases he; exact hT.flux d hd⟩
  · cases hrun

/-- What is asked of a statement: new tensors have indices as in `GoodIs`, few enough blocks to number, and
a flux built by the API; values passed to `set` are values of the indices; `set` is not called with a
vector. -/
def Instr.Fine (M : Verif.QN.Name → Int) (u : List Verif.QN.Name) (env : Key → List (Verif.QN.QN × Nat))
    (fuel : Nat) (s : Nat → QTensor K) : Instr K → Prop
  | .new _ is => GoodIs M u env is ∧ (nb is).prod < fuel ∧ ((nb is).prod : Int) ≤ offMax
  | .newDiv _ is div => GoodIs M u env is ∧ is ≠ [] ∧ (nb is).prod < fuel ∧ ((nb is).prod : Int) ≤ offMax ∧ IsQN M div
  | .set r ind _ => ind ≠ [] ∧ (ind.length = (s r).is.length →
      Valid ((s r).is.map fun I => (I.qns.map (·.2)).sum) ind)
  | .setVec _ _ _ => False
  | _ => True

theorem exec1_good [DecidableEq K] {cj : K → K} {s : Nat → QTensor K} (hs : ∀ r, Good M u env fuel (s r))
    {i : Instr K} (hi : i.Fine M u env fuel s) {T : QTensor K} (hrun : (exec1 cj fuel s i).2 = some (.ok T)) :
    Good M u env fuel T := by
  cases i with
  | new r is =>
    cases hrun
    exact ⟨hi.1, fun _ => hi.2, (by intro d hd; cases hd), (by intro d hd; cases hd)⟩
  | newDiv r is div =>
    obtain ⟨h1, h2, h3, h4, h5⟩ := hi
    obtain ⟨d, g1, g2, _, g4⟩ := C21_ofDiv (K := K) h2 h1.ne h1.ok h5 fuel h3 h4
    simp only [exec1, g1, Run.bind_ok] at hrun
    cases hrun
    exact ⟨h1, by simp, by intro e he; cases he; exact g2, by
      intro e he; cases he; exact hasFlux_of fun o ho n => ((g4 o.block).1 ⟨o, ho, rfl⟩).2 n⟩
  | set r ind v =>
    change setVals fuel (s r) ind v = _ at hrun
    by_cases hl : ind.length = (s r).is.length
    · have hv := hi.2 hl
      cases hd : (s r).store with
      | none =>
        obtain ⟨d', g1, g2, _⟩ := C82_set_first (hs r) hd (by
          intro e; rw [e] at hl; exact hi.1 (List.length_eq_zero_iff.1 hl)) hv v
        rw [g1] at hrun; cases hrun; exact g2
      | some d =>
        obtain ⟨div, _, p1, p2⟩ := C82_set (hs r) hd hv v
        by_cases hf : ∀ n, norm (M n) (eltVal (s r).is ind n) = div.val n
        · obtain ⟨d', g1, g2, _⟩ := p1 hf
          rw [g1] at hrun; cases hrun; exact g2
        · rw [p2 (by push Not at hf; exact hf)] at hrun; cases hrun
    · unfold setVals at hrun
      rw [if_pos (by simpa using hl)] at hrun; cases hrun
  | setVec r ind v => exact absurd hi id
  | copy l r => cases hrun; exact hs r
  | add l r =>
    change (if l = r then _ else _) = _ at hrun
    split at hrun
    · split at hrun
      · exact scaleT_good (hs l) hrun
      · cases hrun; exact hs l
    · unfold plusT at hrun
      split at hrun
      · cases hrun; exact hs r
      · cases hrun
      · rename_i A B hA hB
        obtain ⟨A', h1, h2⟩ := Run.bind_eq_ok.1 hrun
        cases h2
        exact daxpyT_good (hs l) (hs r) hA hB 1 h1
  | sub l r =>
    change (if l = r then _ else _) = _ at hrun
    split at hrun
    · split at hrun
      · exact scaleT_good (hs l) hrun
      · cases hrun
    · unfold minusT at hrun
      split at hrun
      · exact scaleT_good (hs r) hrun
      · cases hrun
      · rename_i A B hA hB
        obtain ⟨A', h1, h2⟩ := Run.bind_eq_ok.1 hrun
        cases h2
        exact daxpyT_good (hs l) (hs r) hA hB (-1) h1
  | mul l r order mem junk =>
    change timesT order fuel mem junk (s l) (s r) = _ at hrun
    cases hA : (s l).store with
    | none => unfold timesT at hrun; rw [hA] at hrun; cases hrun
    | some A =>
      cases hB : (s r).store with
      | none => unfold timesT at hrun; rw [hA, hB] at hrun; cases hrun
      | some B =>
        by_cases e1 : (s l).is = []
        · unfold timesT at hrun
          rw [hA, hB] at hrun
          dsimp only at hrun
          rw [if_pos e1] at hrun
          obtain ⟨z, _, h2⟩ := Run.bind_eq_ok.1 hrun
          exact scaleT_good (hs r) h2
        · by_cases e2 : (s r).is = []
          · unfold timesT at hrun
            rw [hA, hB] at hrun
            dsimp only at hrun
            rw [if_neg e1, if_pos e2] at hrun
            obtain ⟨z, _, h2⟩ := Run.bind_eq_ok.1 hrun
            exact scaleT_good (hs l) h2
          · exact (C82_mul (hs l) (hs r) hA hB e1 e2 order mem junk hrun).1
  | scale r z => exact scaleT_good (hs r) hrun
  | dag r =>
    change dagT cj (s r) = _ at hrun
    cases hd : (s r).store with
    | none => unfold dagT at hrun; rw [hd] at hrun; cases hrun
    | some d => exact (C82_dag (hs r) hd hrun).1

/-- All statements of a program are as asked when they are reached. -/
def FineProg [DecidableEq K] (M : Verif.QN.Name → Int) (u : List Verif.QN.Name) (env : Key → List (Verif.QN.QN × Nat))
    (cj : K → K) (fuel : Nat) : List (Instr K) → (Nat → QTensor K) → Prop
  | [], _ => True
  | i :: p, s => i.Fine M u env fuel s ∧ ∀ T, (exec1 cj fuel s i).2 = some (.ok T) →
      FineProg M u env cj fuel p (Function.update s (exec1 cj fuel s i).1 T)

/-- **C82.** Every program of constructors, `set` with an argument per index, copies, sums, differences,
products, multiples and `dag` leaves tensors each of which has one flux: all elements which are not zero
have the flux that `div` returns. Partial: `set` with a vector is excluded (`C82_vector_counterexample`). -/
theorem C82_program_partial [DecidableEq K] {cj : K → K} {p : List (Instr K)} {s s' : Nat → QTensor K}
    (hs : ∀ r, Good M u env fuel (s r)) (hp : FineProg M u env cj fuel p s)
    (hrun : exec cj fuel p s = some (.ok s')) : ∀ r, OneFlux M (s' r) := by
  suffices ∀ r, Good M u env fuel (s' r) from fun r => (this r).oneFlux
  induction p generalizing s with
  | nil => cases hrun; exact hs
  | cons i p ih =>
    obtain ⟨T, h1, h2⟩ := Run.bind_eq_ok.1 hrun
    refine ih ?_ (hp.2 T h1) h2
    intro r
    unfold Function.update
    by_cases e : r = (exec1 cj fuel s i).1
    · subst e; simpa using exec1_good hs hp.1 h1
    · simpa [e] using hs r

end

end Verif.QDense
