import Verif.QDense.DiagContractProps
import Verif.QDense.FluxEx

/-!
# Property C103: products of block-sparse and diagonal tensors with quantum numbers
-/

namespace Verif.QDense

open Verif.Index (Index IndexSet)
open Verif.Index.IndexSet (keys computeLabels contractIS Key prodInds exists_lab prodInds_lab)
open Verif.Tensor
open Verif.Tensor.Range
open Finset (sum_congr sum_comm mem_range sum_eq_zero sum_eq_single_of_mem range sum_add_distrib)
open Verif.Net (DG DS IT Ten replaceIndex isReplaceDelta prodVal' IsOK LabOK sumOver_congr_bd C28_elements mul_diag_right)
open Verif.QN (norm IsQN)

section
variable {K : Type*} [CommRing K] [DecidableEq K]
variable {M : Verif.QN.Name → Int} {u : List Verif.QN.Name} {env : Key → List (Verif.QN.QN × Nat)} {zs : List Nat} {Tis Nis : IndexSet} {d : DG K} {t : QDense K}

/-- The sum over the diagonal is the sum over the shared indices. -/
theorem diagProd_sum (h : DCtx M u env zs Tis d t Nis) (hdim : ∀ I ∈ d.is, I.dim = zs.sum) {fT fD : List Nat → K}
    (hfD : ∀ ind, Valid (d.is.map fun I => (I.qns.map (·.2)).sum) ind → d.getElt ind = .ok (fD ind))
    {ext : Key → Nat} (hext : ∀ I, (I ∈ Tis ∨ I ∈ d.is) → ext I.key = (I.qns.map (·.2)).sum) {ρ : Key → Nat}
    (hρ : ∀ I, (I ∈ Tis ∨ I ∈ d.is) → ρ I.key < ext I.key) :
    diagProd d Tis fT ρ = sumOver ext ((keys Tis).filter (· ∈ keys d.is)) (fun σ => fT (Tis.map fun I => σ I.key) * fD (d.is.map fun I => σ I.key)) ρ := by
  have hdz : ∀ I ∈ d.is, (I.qns.map (·.2)).sum = zs.sum := fun I hI => by rw [show I.qns.map (·.2) = zs from h.hz I hI]
  have hpos : 0 < zs.sum := by
    obtain ⟨I, hI⟩ := List.exists_mem_of_ne_nil _ h.ne
    have hzl : 0 < zs.length := by rw [← h.nblock hI]; exact h.D.ne I hI
    have := take_add_le hzl
    have := h.zpos' hzl
    omega
  set d' : DG K := ⟨d.is.map fun I => { I with qns := [] }, d.store, d.val, d.length⟩ with hd'
  have hk : keys d'.is = keys d.is := by simp only [hd', keys, List.map_map]; rfl
  have hOK : d'.OK ext := by
    refine ⟨⟨by rw [hk]; exact h.D.nodup, ?_, ?_, ?_⟩, ?_, ?_, h.store⟩
    · intro i hi
      obtain ⟨I, hI, rfl⟩ := List.mem_map.1 hi
      change I.dim = ext I.key
      rw [hext I (Or.inr hI), hdz I hI, hdim I hI]
    · intro i hi
      obtain ⟨I, hI, rfl⟩ := List.mem_map.1 hi
      change 0 < I.dim
      rw [hdim I hI]; exact hpos
    · intro i hi
      obtain ⟨I, hI, rfl⟩ := List.mem_map.1 hi
      rfl
    · intro i hi
      obtain ⟨I, hI, rfl⟩ := List.mem_map.1 hi
      change d.length ≤ I.dim
      rw [hdim I hI, h.len]
    · right
      obtain ⟨I, hI⟩ := List.exists_mem_of_ne_nil _ h.ne
      exact ⟨_, List.mem_map.2 ⟨I, hI, rfl⟩, by change I.dim = d.length; rw [hdim I hI, h.len]⟩
  let T : Ten Key K := ⟨keys Tis, fun σ => fT (Tis.map fun I => σ I.key)⟩
  have hT : T.OK := ⟨h.T.nodup, fun σ τ hs => by
    change fT _ = fT _
    congr 1
    exact List.map_congr_left fun I hI => hs _ (List.mem_map_of_mem hI)⟩
  have e1 : diagProd d Tis fT ρ = prodVal' d' T ρ := by
    unfold diagProd prodVal'
    rw [hk]
    rfl
  rw [e1, ← mul_diag_right hOK hT ρ]
  unfold Verif.Net.mul
  dsimp only
  refine Eq.trans (congrArg (fun l => sumOver ext l _ ρ) (List.filter_congr (q := fun x => decide (x ∈ keys d.is)) fun k _ => ?_)) ?_
  · simp only [decide_eq_decide]
    rw [← hk]
    exact Iff.rfl
  refine sumOver_congr_bd ext _ ρ fun σ h1 h2 => ?_
  have hσ : ∀ I ∈ d.is, σ I.key < ext I.key := by
    intro I hI
    by_cases hs : I.key ∈ (keys Tis).filter (· ∈ keys d.is)
    · exact h2 _ hs
    · rw [h1 _ hs]; exact hρ I (Or.inr hI)
  change fT _ * d'.sem.val σ = _
  congr 1
  have g1 := (C28_elements hOK).elt σ (by
    intro k hk'
    have hk' : k ∈ keys d.is := by rw [← hk]; exact hk'
    obtain ⟨I, hI, rfl⟩ := List.mem_map.1 hk'
    exact hσ I hI)
  have g2 := hfD (d.is.map fun I => σ I.key) (by
    unfold Valid
    rw [List.forall₂_map_left_iff, List.forall₂_map_right_iff, List.forall₂_same]
    intro I hI
    rw [← hext I (Or.inr hI)]
    exact hσ I hI)
  have g3 : d.getElt (d.is.map fun I => σ I.key) = .ok (d'.sem.val σ) := by
    rw [← g1]
    have : (IT.diag d').is.map (fun i => σ i.key) = d.is.map fun I => σ I.key := by
      change (d.is.map _).map _ = _
      rw [List.map_map]
      rfl
    rw [this]
    rfl
  rw [g2] at g3
  exact (Res.ok.inj g3).symm

/-- Both orders of the factors. -/
theorem product_ok (h : DCtx M u env zs Tis d t Nis) (hTne : Tis ≠ []) (hdim : ∀ I ∈ d.is, I.dim = zs.sum)
    (hdir : ∀ I ∈ Tis, ∀ J ∈ d.is, I.key = J.key → I.dir = - J.dir)
    (hflux : ∀ n < zs.length, ∀ x, norm (M x) (fluxVal d.is (List.replicate d.is.length n) x) = norm (M x) (fluxVal d.is (List.replicate d.is.length 0) x))
    (hF : HasFlux M Tis t) {lab : Key → Int} (hl : LabOK lab d.is Tis) {fuel : Nat} (hf : t.size < fuel) (hfD : (nb d.is).prod < fuel)
    (hfN : (nb Nis).prod < fuel) (hmax : ((nb Nis).prod : Int) ≤ offMax) {fT : List Nat → K}
    (hfT : ∀ ind, Valid (Tis.map fun I => (I.qns.map (·.2)).sum) ind → getElt t Tis ind = .ok (fT ind)) :
    ∃ R : QT K, (if isReplaceDelta d ((keys d.is).map lab) = true then
        some (.ok (.sparse (replaceIndex Tis ((keys Tis).map lab) d.is ((keys d.is).map lab)) t))
      else blockDiagDense fuel d ((keys d.is).map lab) Tis t ((keys Tis).map lab) (Nis.map fun i => (i, lab i.key))) = some (.ok R) ∧ R.is.Perm Nis ∧
      ∀ ρ : Key → Nat, (∀ I ∈ Nis, ρ I.key < (I.qns.map (·.2)).sum) → R.getElt (R.is.map fun I => ρ I.key) = .ok (diagProd d Tis fT ρ) := by
  by_cases hr : isReplaceDelta d ((keys d.is).map lab) = true
  · rw [if_pos hr]
    obtain ⟨R, r1, r2, r3⟩ := replace_val h hl hr hfT
    rw [r1]
    exact ⟨_, rfl, r2, r3⟩
  · rw [if_neg hr]
    by_cases hU : Tis.filter (fun i => decide (i.key ∉ keys d.is)) = []
    · have hU' : ∀ I ∈ Tis, I.key ∈ keys d.is := by
        intro I hI
        by_contra hk
        have : I ∈ Tis.filter (fun i => decide (i.key ∉ keys d.is)) := List.mem_filter.2 ⟨hI, by simpa using hk⟩
        rw [hU] at this
        simp at this
      obtain ⟨R, r1, r2, r3⟩ := blockDiagDense_full h hflux hF hTne hdim hl hU' hfD hfT
      refine ⟨R, r1, by rw [r2], ?_⟩
      rw [r2]; exact r3
    · obtain ⟨C, r1, _, r3⟩ := blockDiagDense_partial h hdir hflux hF hl hU hf hfD hfN hmax hfT
      exact ⟨_, r1, List.Perm.refl _, r3⟩

/-- **C103.** `T*D` with `T` block-sparse and `D` diagonal, both with quantum numbers: the result has the indices that are not shared, and each of its elements is the sum, over the values
of the shared indices, of the products of the elements of `T` and `D` as `elt` reads them. `fT` and `fD` are these elements; `ρ` assigns a value to every index. The indices of `D` have
sectors of the same sizes `zs`, the diagonal blocks of `D` have the same flux and so have the blocks of `T`, and shared indices have opposite arrows.
Partial: when the sectors of the indices of `D` have different sizes see `C103_replace_counterexample` and `C103_full_counterexample`. -/
theorem C103_sparse_diag_partial (hT : GoodIs M u env Tis) (hD : GoodIs M u env d.is) (hTne : Tis ≠ []) (hne : d.is ≠ [])
    (hz : ∀ I ∈ d.is, I.qns.map (·.2) = zs ∧ I.dim = zs.sum) (hdir : ∀ I ∈ Tis, ∀ J ∈ d.is, I.key = J.key → I.dir = - J.dir)
    (hflux : ∀ n < zs.length, ∀ x, norm (M x) (fluxVal d.is (List.replicate d.is.length n) x) = norm (M x) (fluxVal d.is (List.replicate d.is.length 0) x))
    (hW : WF Tis t.offsets t.size) (hF : HasFlux M Tis t) (hs : d.store = [] ∨ d.store.length = d.length) (hlen : d.length = zs.sum)
    {fuel : Nat} (hf : t.size < fuel) (hfD : (nb d.is).prod < fuel)
    (hfN : (nb (Tis.filter (fun i => decide (i.key ∉ keys d.is)) ++ d.is.filter (fun i => decide (i.key ∉ keys Tis)))).prod < fuel ∧
      ((nb (Tis.filter (fun i => decide (i.key ∉ keys d.is)) ++ d.is.filter (fun i => decide (i.key ∉ keys Tis)))).prod : Int) ≤ offMax)
    {fT fD : List Nat → K} (hfT : ∀ ind, Valid (Tis.map fun I => (I.qns.map (·.2)).sum) ind → getElt t Tis ind = .ok (fT ind))
    (hfD' : ∀ ind, Valid (d.is.map fun I => (I.qns.map (·.2)).sum) ind → d.getElt ind = .ok (fD ind)) :
    ∃ R, mulSparseDiag fuel Tis t d = some (.ok R) ∧
      R.is.Perm (Tis.filter (fun i => decide (i.key ∉ keys d.is)) ++ d.is.filter (fun i => decide (i.key ∉ keys Tis))) ∧
      ∀ ext : Key → Nat, (∀ I, (I ∈ Tis ∨ I ∈ d.is) → ext I.key = (I.qns.map (·.2)).sum) →
      ∀ ρ : Key → Nat, (∀ I, (I ∈ Tis ∨ I ∈ d.is) → ρ I.key < ext I.key) →
        R.getElt (R.is.map fun I => ρ I.key) =
          .ok (sumOver ext ((keys Tis).filter (· ∈ keys d.is)) (fun σ => fT (Tis.map fun I => σ I.key) * fD (d.is.map fun I => σ I.key)) ρ) := by
  have h : DCtx M u env zs Tis d t (Tis.filter (fun i => decide (i.key ∉ keys d.is)) ++ d.is.filter (fun i => decide (i.key ∉ keys Tis))) :=
    ⟨hT, hD, fun I hI => (hz I hI).1, hne, hW, hs, hlen, List.Perm.refl _⟩
  obtain ⟨lab, hA, hB, hinj, hsg⟩ := exists_lab Tis d.is hT.nodup hD.nodup
  have hl : LabOK lab d.is Tis := ⟨fun k k' h h' e => hinj k k' h.symm h'.symm e, fun k h => ⟨(hsg k h.symm).1, (hsg k h.symm).2.trans and_comm⟩⟩
  have hq : Verif.Index.IndexSet.hasQNs Tis = Verif.Index.IndexSet.hasQNs d.is := by rw [hasQNs_good hT hTne, hasQNs_good hD hne]
  have hprod := prodInds_lab hq hA hB hsg
  unfold prodInds at hprod
  obtain ⟨R, r1, r2, r3⟩ := product_ok h hTne (fun I hI => (hz I hI).2) hdir hflux hF hl hf hfD hfN.1 hfN.2 hfT
  refine ⟨R, ?_, r2, fun ext hext ρ hρ => ?_⟩
  · unfold mulSparseDiag
    simp only [hprod]
    rw [hA, hB]
    exact r1
  · rw [r3 ρ (by
      intro I hI
      have hI' : I ∈ Tis ∨ I ∈ d.is := (List.mem_append.1 hI).imp (fun h => (List.mem_filter.1 h).1) fun h => (List.mem_filter.1 h).1
      rw [← hext I hI']
      exact hρ I hI'), diagProd_sum h (fun I hI => (hz I hI).2) hfD' hext hρ]

/-- **C103.** The same for `D*T`. -/
theorem C103_diag_sparse_partial (hT : GoodIs M u env Tis) (hD : GoodIs M u env d.is) (hTne : Tis ≠ []) (hne : d.is ≠ [])
    (hz : ∀ I ∈ d.is, I.qns.map (·.2) = zs ∧ I.dim = zs.sum) (hdir : ∀ I ∈ Tis, ∀ J ∈ d.is, I.key = J.key → I.dir = - J.dir)
    (hflux : ∀ n < zs.length, ∀ x, norm (M x) (fluxVal d.is (List.replicate d.is.length n) x) = norm (M x) (fluxVal d.is (List.replicate d.is.length 0) x))
    (hW : WF Tis t.offsets t.size) (hF : HasFlux M Tis t) (hs : d.store = [] ∨ d.store.length = d.length) (hlen : d.length = zs.sum)
    {fuel : Nat} (hf : t.size < fuel) (hfD : (nb d.is).prod < fuel)
    (hfN : (nb (d.is.filter (fun i => decide (i.key ∉ keys Tis)) ++ Tis.filter (fun i => decide (i.key ∉ keys d.is)))).prod < fuel ∧
      ((nb (d.is.filter (fun i => decide (i.key ∉ keys Tis)) ++ Tis.filter (fun i => decide (i.key ∉ keys d.is)))).prod : Int) ≤ offMax)
    {fT fD : List Nat → K} (hfT : ∀ ind, Valid (Tis.map fun I => (I.qns.map (·.2)).sum) ind → getElt t Tis ind = .ok (fT ind))
    (hfD' : ∀ ind, Valid (d.is.map fun I => (I.qns.map (·.2)).sum) ind → d.getElt ind = .ok (fD ind)) :
    ∃ R, mulDiagSparse fuel d Tis t = some (.ok R) ∧
      R.is.Perm (d.is.filter (fun i => decide (i.key ∉ keys Tis)) ++ Tis.filter (fun i => decide (i.key ∉ keys d.is))) ∧
      ∀ ext : Key → Nat, (∀ I, (I ∈ Tis ∨ I ∈ d.is) → ext I.key = (I.qns.map (·.2)).sum) →
      ∀ ρ : Key → Nat, (∀ I, (I ∈ Tis ∨ I ∈ d.is) → ρ I.key < ext I.key) →
        R.getElt (R.is.map fun I => ρ I.key) =
          .ok (sumOver ext ((keys Tis).filter (· ∈ keys d.is)) (fun σ => fT (Tis.map fun I => σ I.key) * fD (d.is.map fun I => σ I.key)) ρ) := by
  have h : DCtx M u env zs Tis d t (d.is.filter (fun i => decide (i.key ∉ keys Tis)) ++ Tis.filter (fun i => decide (i.key ∉ keys d.is))) :=
    ⟨hT, hD, fun I hI => (hz I hI).1, hne, hW, hs, hlen, List.perm_append_comm⟩
  obtain ⟨lab, hA, hB, hinj, hsg⟩ := exists_lab d.is Tis hD.nodup hT.nodup
  have hl : LabOK lab d.is Tis := ⟨hinj, hsg⟩
  have hq : Verif.Index.IndexSet.hasQNs d.is = Verif.Index.IndexSet.hasQNs Tis := by rw [hasQNs_good hT hTne, hasQNs_good hD hne]
  have hprod := prodInds_lab hq hA hB hsg
  unfold prodInds at hprod
  obtain ⟨R, r1, r2, r3⟩ := product_ok h hTne (fun I hI => (hz I hI).2) hdir hflux hF hl hf hfD hfN.1 hfN.2 hfT
  refine ⟨R, ?_, r2, fun ext hext ρ hρ => ?_⟩
  · unfold mulDiagSparse
    simp only [hprod]
    rw [hA, hB]
    exact r1
  · rw [r3 ρ (by
      intro I hI
      have hI' : I ∈ Tis ∨ I ∈ d.is := ((List.mem_append.1 hI).imp (fun h => (List.mem_filter.1 h).1) fun h => (List.mem_filter.1 h).1).symm
      rw [← hext I hI']
      exact hρ I hI'), diagProd_sum h (fun I hI => (hz I hI).2) hfD' hext hρ]

end

/-- **C103 is false for a delta that replaces an index by one which is split into sectors differently** (qdiag.cc:520-531): the storage is kept, although its blocks do not have the sizes that
the new index needs. A vector with elements 5, 6, 7, split 1+2, times the delta with an index split 2+1 has elements 5, 6, 6. -/
theorem C103_replace_counterexample :
    let t : QDense Int := ⟨[⟨[0], 0⟩, ⟨[1], 1⟩], 3, fun a => a + 5⟩
    let d : DG Int := ⟨[exSplit 1 (-1) 1 2, exSplit 2 1 2 1], [], 1, 3⟩
    ([0, 1, 2].map fun i => getElt t [exSplit 1 1 1 2] [i]) = [.ok 5, .ok 6, .ok 7] ∧
    ([0, 1, 2].map fun i => (mulSparseDiag 100 [exSplit 1 1 1 2] t d).map fun r => r.bind fun R => R.getElt [i]) = [some (.ok 5), some (.ok 6), some (.ok 6)] :=
  ⟨by decide +kernel, by decide +kernel⟩

/-- **C103 is false for a diagonal tensor with stored elements whose remaining index is split into sectors differently** (qdiag.cc:436-471 and contract.h:306-348): `contractDiagFull` does not
take into account where in the block of the result the first element is. A vector with elements 5, 6, 7, split 2+1, times diag(10,100,1000) with an index split 1+2 has elements 50, 7600, 0
instead of 50, 600, 7000. -/
theorem C103_full_counterexample :
    let t : QDense Int := ⟨[⟨[0], 0⟩, ⟨[1], 2⟩], 3, fun a => a + 5⟩
    let d : DG Int := ⟨[exSplit 1 (-1) 2 1, exSplit 2 1 1 2], [10, 100, 1000], 0, 3⟩
    ([0, 1, 2].map fun i => getElt t [exSplit 1 1 2 1] [i]) = [.ok 5, .ok 6, .ok 7] ∧
    ([0, 1, 2].map fun i => (mulSparseDiag 100 [exSplit 1 1 2 1] t d).map fun r => r.bind fun R => R.getElt [i]) = [some (.ok 50), some (.ok 7600), some (.ok 0)] :=
  ⟨by decide +kernel, by decide +kernel⟩

/-! ## Examples -/

/-- The diagonal tensor diag(10,100,1000). -/
def exDg (i j : Index) : DG Int := ⟨[i, j], [10, 100, 1000], 0, 3⟩

theorem exGood2' (i j : Nat) (di dj : Int) (hij : i ≠ j) (h1 : di = 1 ∨ di = -1) (h2 : dj = 1 ∨ dj = -1) :
    GoodIs (fun _ => 1) [Verif.TagSet.Tag.ofBytes [83, 122]] exEnv [exI i di, exI j dj] :=
  exGoodIs (by simp [keys, exI, Index.key, hij]) (by
    intro I hI
    have : I = exI i di ∨ I = exI j dj := by simpa using hI
    rcases this with rfl | rfl
    · exact ⟨rfl, h1⟩
    · exact ⟨rfl, h2⟩)

theorem exFlux2 {x : Verif.QN.Name} (n : Nat) (hn : n < 2) (i j : Nat) : fluxVal [exI i 1, exI j (-1)] (List.replicate 2 n) x = 0 := by
  rcases n with _ | _ | n
  · simp [fluxVal, exI]
  · simp [fluxVal, exI]
  · omega

/-- The hypotheses of the theorem hold of a matrix with two blocks and a diagonal matrix: each column is multiplied. -/
example : ∃ R, mulSparseDiag 100 [exI 1 1, exI 2 (-1)] exD2 (exDg (exI 2 1) (exI 3 (-1))) = some (.ok R) ∧
    ([[0, 0], [0, 1], [0, 2], [1, 0], [1, 1], [2, 2]].map R.getElt) = [.ok 10, .ok 300, .ok 0, .ok 20, .ok 400, .ok 7000] := by
  obtain ⟨R, r1, _, _⟩ := C103_sparse_diag_partial (d := exDg (exI 2 1) (exI 3 (-1))) (zs := [2, 1]) (t := exD2) (fuel := 100)
    (fT := fun ind => match getElt exD2 [exI 1 1, exI 2 (-1)] ind with | .ok x => x | _ => 0)
    (fD := fun ind => match (exDg (exI 2 1) (exI 3 (-1))).getElt ind with | .ok x => x | _ => 0)
    exGood2 (exGood2' 2 3 1 (-1) (by decide) (by decide) (by decide)) (by simp) (by simp [exDg])
    (by
      intro I hI
      have : I = exI 2 1 ∨ I = exI 3 (-1) := by simpa [exDg] using hI
      rcases this with rfl | rfl <;> exact ⟨rfl, rfl⟩) (by
      intro I hI J hJ
      have h1 : I = exI 1 1 ∨ I = exI 2 (-1) := by simpa using hI
      have h2 : J = exI 2 1 ∨ J = exI 3 (-1) := by simpa [exDg] using hJ
      rcases h1 with rfl | rfl <;> rcases h2 with rfl | rfl <;> decide) (by
      intro n hn x
      rw [show (exDg (exI 2 1) (exI 3 (-1))).is.length = 2 from rfl, show (exDg (exI 2 1) (exI 3 (-1))).is = [exI 2 1, exI 3 (-1)] from rfl, exFlux2 n hn,
        exFlux2 0 (by decide)]) (exD2_wf _ _ _ _) (by
      intro o ho o' ho' x
      have h1 : o = ⟨[0, 0], 0⟩ ∨ o = ⟨[1, 1], 4⟩ := by simpa [exD2] using ho
      have h2 : o' = ⟨[0, 0], 0⟩ ∨ o' = ⟨[1, 1], 4⟩ := by simpa [exD2] using ho'
      have e0 := exFlux2 (x := x) 0 (by decide) 1 2
      have e1 := exFlux2 (x := x) 1 (by decide) 1 2
      rcases h1 with rfl | rfl <;> rcases h2 with rfl | rfl <;> simp only [List.replicate] at e0 e1 <;> simp only [e0, e1]) (Or.inr rfl) rfl (by decide) (by decide) (by decide +kernel)
    (by
      intro ind hv
      obtain ⟨b, w, g1, g2, rfl⟩ := exists_glue (is := [exI 1 1, exI 2 (-1)]) hv
      rw [getElt_glue (exD2_wf _ _ _ _) g1 g2]) (by
      intro ind hv
      have hall : ∀ a < 3, ∀ b < 3, (exDg (exI 2 1) (exI 3 (-1))).getElt [a, b] =
          .ok (match (exDg (exI 2 1) (exI 3 (-1))).getElt [a, b] with | .ok x => x | _ => 0) := by decide +kernel
      match ind, hv with
      | _, .cons h1 (.cons h2 .nil) => exact hall _ h1 _ h2)
  refine ⟨R, r1, ?_⟩
  have h2 : (mulSparseDiag 100 [exI 1 1, exI 2 (-1)] exD2 (exDg (exI 2 1) (exI 3 (-1)))).map
      (fun r => r.map fun R => [[0, 0], [0, 1], [0, 2], [1, 0], [1, 1], [2, 2]].map R.getElt) =
      some (.ok [.ok 10, .ok 300, .ok 0, .ok 20, .ok 400, .ok 7000]) := by decide +kernel
  rw [r1] at h2
  simpa [Res.map] using h2

/-- A matrix times a diagonal matrix that takes both of its indices gives a number. -/
example : (mulDiagSparse 100 (exDg (exI 2 1) (exI 1 (-1))) [exI 1 1, exI 2 (-1)] exD2).map (fun r => r.bind fun R => R.getElt []) = some (.ok 7410) := by
  decide +kernel

end Verif.QDense
