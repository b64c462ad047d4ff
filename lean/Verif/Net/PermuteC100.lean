import Verif.Net.Permute
import Verif.Net.NcProdC99
import Verif.QDense.Uncombine
import Verif.QDense.FluxEx

/-! # C100: permuting the indices of a tensor -/

namespace Verif.Net

open Verif.Tensor Verif.Tensor.Range Verif.Tensor.Permutation Verif.Index Verif.Index.IndexSet Finset

variable {K : Type*} [CommRing K]

/-- The indices in the new order. -/
theorem permInds_ok {P : Permutation} {is iset : IndexSet} (hP : IsPerm P) (hl : P.length = is.length) (hl2 : is.length = iset.length)
    (h : ∀ (i d : Nat), P[i]? = some d → (keys iset)[d]? = (keys is)[i]?) :
    ∃ Bis, permInds P is = .ok Bis ∧ LabelPerm P is Bis ∧ Bis.Perm is ∧ keys Bis = keys iset := by
  obtain ⟨Bis, h1, h2, h3⟩ := C16_permute P hP is (List.replicate is.length noIndex) hl.symm (by simp [hl])
  have hLP : LabelPerm P is Bis := ⟨hP, hl, by rw [← hl, h2], h3⟩
  have e : is = P.map fun d => Bis.getD d noIndex := by
    refine List.ext_getElem? fun i => ?_
    by_cases hi : i < P.length
    · have hd := List.getElem?_eq_getElem hi
      have hlt : P[i] < Bis.length := by rw [h2]; exact hP.lt (List.getElem_mem hi)
      rw [List.getElem?_map, hd, ← h3 i _ hd]
      simp [hlt]
    · rw [List.getElem?_eq_none (by omega), List.getElem?_eq_none (by simp; omega)]
  have e2 : Bis = (List.range P.length).map fun d => Bis.getD d noIndex := by
    refine List.ext_getElem (by simp [h2]) fun i i1 i2 => ?_
    simp [List.getElem?_eq_getElem i1]
  refine ⟨Bis, h1, hLP, ?_, ?_⟩
  · conv_lhs => rw [e2]
    conv_rhs => rw [e]
    exact (List.Perm.map _ hP).symm
  · refine get_of_perm hP (by simp [keys, h2]) (by simp [keys, ← hl2, hl]) fun n d hd => ?_
    rw [h n d hd]
    exact labelPerm_map hLP Index.key n d hd

theorem calcPerm_bad {L R : IndexSet} (hR : (keys R).Nodup) (hl : L.length = R.length) (h : ¬ (keys R).Perm (keys L)) : calcPerm (keys L) (keys R) = .throw := by
  obtain ⟨x, hx, hn⟩ : ∃ x ∈ keys R, x ∉ keys L := by
    by_contra hc
    push Not at hc
    exact h ((List.subperm_of_subset hR hc).perm_of_length_le (by simp [keys, hl]))
  exact C16_calcPerm_throws _ _ x hx hn

theorem trivial_keys {P : Permutation} {xs ys : List Key} (ht : isTrivial P = true) (h1 : P.length = xs.length) (h2 : xs.length = ys.length)
    (h : ∀ (i d : Nat), P[i]? = some d → ys[d]? = xs[i]?) : xs = ys := by
  refine List.ext_getElem? fun n => ?_
  by_cases hn : n < P.length
  · have := (C16_isTrivial P).1 ht n hn
    exact (h n n (by rw [List.getElem?_eq_getElem hn, this])).symm
  · rw [List.getElem?_eq_none (by omega), List.getElem?_eq_none (by omega)]

theorem isOK_perm {ext : Key → Nat} {L R : IndexSet} (h : L.Perm R) (hR : IsOK ext R) : IsOK ext L :=
  ⟨(h.map _).nodup_iff.2 hR.nodup, fun i hi => hR.dims i (h.mem_iff.1 hi), fun i hi => hR.pos i (h.mem_iff.1 hi), fun i hi => hR.noqn i (h.mem_iff.1 hi)⟩

/-- **C100.** `permute(T,inds)` for a dense or diagonal tensor: the result has the indices of `T` in the order of `inds`, and the element for given values of the indices is the one of `T`. Partial: `inds` that repeat an index are not
always an error, see `C100_repeated_counterexample`. -/
theorem C100_permute_partial [DecidableEq K] {ext : Key → Nat} {T : IT K} (hT : T.OK ext) {iset : IndexSet} (hk : (keys iset).Perm (keys T.is)) (fuel : Nat)
    (hmax : (((T.is.map (·.dim)).prod : Nat) : Int) ≤ offMax) (hf : (T.is.map (·.dim)).prod < fuel) :
    ∃ N, T.permute fuel iset = some (.ok N) ∧ N.is.Perm T.is ∧ keys N.is = keys iset ∧ N.OK ext ∧
      ∀ σ : Key → Nat, (∀ i ∈ T.is, σ i.key < i.dim) → ∃ x, T.getElt (T.is.map fun i => σ i.key) = .ok x ∧ N.getElt (N.is.map fun i => σ i.key) = .ok x := by
  have hn := hT.isOK.nodup
  obtain ⟨P, hP, hp1, hp2, hp3⟩ := C16_calcPerm (keys T.is) (keys iset) hk.symm hn
  have hlen : T.is.length = iset.length := by simpa [keys] using hk.length_eq.symm
  have hb : ∀ σ : Key → Nat, (∀ i ∈ T.is, σ i.key < i.dim) → ∀ k ∈ keys T.is, σ k < ext k := by
    intro σ hσ k hk
    obtain ⟨i, hi, rfl⟩ := List.mem_map.1 hk
    rw [← hT.isOK.dims i hi]; exact hσ i hi
  unfold IT.permute
  rw [if_neg (by simpa using hlen), hP]
  simp only
  by_cases ht : isTrivial P = true
  · rw [if_pos ht]
    refine ⟨T, rfl, .refl _, trivial_keys ht hp2 (by simp [keys, hlen]) hp3, hT, fun σ hσ => ?_⟩
    have := (IT.holds_sem hT).elt σ (by rw [IT.inds_sem]; exact hb σ hσ)
    exact ⟨_, this, this⟩
  · rw [if_neg ht]
    obtain ⟨Bis, hB, hLP, hpm, hkb⟩ := permInds_ok hp1 (by rw [hp2]; simp [keys]) hlen hp3
    rw [hB]
    have hokB : IsOK ext Bis := isOK_perm hpm hT.isOK
    cases T with
    | dense t =>
      have h : t.OK ext := hT
      have hprod : (Bis.map (·.dim)).prod = (t.is.map (·.dim)).prod := (hpm.map _).prod_eq
      have hdB : Bis.map (·.dim) = (keys Bis).map ext := dims_ext hokB.dims
      have hdA : t.is.map (·.dim) = (keys t.is).map ext := dims_ext h.is.dims
      have hLk : LabelPerm P (keys t.is) (keys Bis) := ⟨hp1, hp2, by simpa [keys, IT.is] using hLP.2.2.1, fun i d hd => labelPerm_map hLP Index.key i d hd⟩
      obtain ⟨V, hV, m, hm, hv, -⟩ := runTransform_perm (fun (b : K) (_ : K) => b) ext hLk
        (by
          intro k hk
          obtain ⟨i, hi, rfl⟩ := List.mem_map.1 hk
          rw [← hokB.dims i hi]; exact hokB.pos i hi)
        (by rw [← hdB, hprod]; exact hmax) fuel (by rw [← hdB, hprod]; exact hf) t.mem t.mem
      have hok : (⟨Bis, t.size, m⟩ : DS K).OK ext := ⟨hokB, by rw [h.size, ← hprod]⟩
      refine ⟨.dense ⟨Bis, t.size, m⟩, ?_, hpm, hkb, hok, fun σ hσ => ⟨_, dense_elt h hσ, ?_⟩⟩
      · simp only [orderDense]
        rw [if_neg (by rw [hprod, h.size]; omega), hdA, hV]
        simp only
        rw [hdB, hm]
        rfl
      · refine (dense_elt hok fun i hi => hσ i (hpm.mem_iff.1 hi)).trans ?_
        simp only [DS.sem]
        rw [hdB, vals_keys, hv σ (fun k hk => hb σ hσ k ((hpm.map _).mem_iff.1 hk)), ← hdA, ← vals_keys]
    | diag d =>
      have h : d.OK ext := hT
      have hok : ({ d with is := Bis } : DG K).OK ext := ⟨hokB, fun i hi => h.le i (hpm.mem_iff.1 hi), by
        rcases h.min with ⟨e, h1⟩ | ⟨i, hi, e⟩
        · left
          exact ⟨List.perm_nil.1 (by rw [← e]; exact hpm), h1⟩
        · exact .inr ⟨i, hpm.mem_iff.2 hi, e⟩, h.store⟩
      refine ⟨.diag { d with is := Bis }, rfl, hpm, hkb, hok, fun σ hσ => ⟨_, (C28_elements h).elt σ (hb σ hσ), ?_⟩⟩
      refine ((C28_elements hok).elt σ fun k hk => hb σ hσ k ((hpm.map _).mem_iff.1 hk)).trans ?_
      simp only [DG.sem]
      have : ∀ J, (∀ k ∈ keys Bis, σ k = J) ↔ ∀ k ∈ keys d.is, σ k = J := fun J =>
        ⟨fun x k hk => x k ((hpm.map _).mem_iff.2 hk), fun x k hk => x k ((hpm.map _).mem_iff.1 hk)⟩
      simp only [this]
      rfl

omit [CommRing K] in
/-- **C100.** Other indices are an error (if `inds` has none twice). -/
theorem C100_mismatch (T : IT K) {iset : IndexSet} (hn : (keys iset).Nodup) (h : ¬ (keys iset).Perm (keys T.is)) (fuel : Nat) : T.permute fuel iset = some .throw := by
  unfold IT.permute
  by_cases hl : T.is.length = iset.length
  · rw [if_neg (by simpa using hl), calcPerm_bad hn hl h]
  · rw [if_pos hl]

end Verif.Net

namespace Verif.QDense

open Verif.Index (Index IndexSet)
open Verif.Index.IndexSet (keys Key)
open Verif.Tensor Verif.Tensor.Permutation
open Verif.QN (IsQN norm)

variable {K : Type*} [CommRing K]

theorem orderBlock_eq {P : Permutation} {Ais Bis : IndexSet} (h : Match P Bis Ais) {A B : QDense K} (hA : WF Ais A.offsets A.size)
    {fuel : Nat} {aio : BlOf} (ha : aio ∈ A.offsets) {b : Block} {boff : Nat} (hb : b.length = P.length) (hpb : pk P b = aio.block)
    (hg : getBlock B b = some boff) :
    orderBlock fuel P Ais Bis A B aio = addBlock fuel P Bis Ais 1 A B ⟨b, boff⟩ := by
  have hal : aio.block.length = P.length := by rw [← hpb, pk_length]
  obtain ⟨r, h1, h2, h3⟩ := C16_permute P h.perm aio.block (List.replicate Ais.length 0) hal (by simp [h.len2])
  have hr : r = b := get_of_perm h.perm h2 hb fun n d hd => by
    rw [h3 n d hd, ← hpb, pk_get hd (by rw [hb]; exact h.perm.lt (List.mem_iff_getElem?.2 ⟨n, hd⟩))]
  subst hr
  have hpl : permuteLoop P aio.block (List.replicate Ais.length 0) = .ok r := h1
  have hga : getBlock A aio.block = some aio.offset := getBlock_mem hA ha
  unfold orderBlock addBlock
  rw [hpl]
  simp only
  rw [hg, pick_ok (fun i hi => by rw [hb]; exact h.perm.lt hi), hpb]
  simp only
  rw [hga]
  simp only [one_mul]
  cases blockExtents Ais aio.block with
  | ok ea =>
    cases blockExtents Bis r with
    | ok eb =>
      simp only
      cases Range.permuteRange (Range.init ea) P <;> rfl
    | throw => rfl
    | ub => rfl
  | throw => cases blockExtents Bis r <;> rfl
  | ub => cases blockExtents Bis r <;> rfl

/-- The loop is that of an addition over the images of the blocks. -/
theorem orderFold_eq {P : Permutation} {Ais Bis : IndexSet} (h : Match P Bis Ais) {A : QDense K} (hA : WF Ais A.offsets A.size) {fuel : Nat} :
    ∀ (l : List BlOf) (f : BlOf → BlOf) (B : QDense K), (∀ o ∈ l, o ∈ A.offsets) →
      (∀ o ∈ l, (f o).block.length = P.length ∧ pk P (f o).block = o.block ∧ ∀ B' : QDense K, B'.offsets = B.offsets → B'.size = B.size → getBlock B' (f o).block = some (f o).offset) →
      runFold (orderBlock fuel P Ais Bis A) B l = runFold (addBlock fuel P Bis Ais 1 A) B (l.map f)
  | [], _, _, _, _ => rfl
  | o :: l, f, B, h1, h2 => by
    obtain ⟨a1, a2, a3⟩ := h2 o (by simp)
    simp only [List.map_cons, runFold]
    rw [orderBlock_eq h hA (h1 o (by simp)) a1 a2 (a3 B rfl rfl)]
    cases e : addBlock fuel P Bis Ais 1 A B (f o) with
    | none => rfl
    | some r =>
      cases r with
      | throw => rfl
      | ub => rfl
      | ok B1 =>
        have hs : B1.offsets = B.offsets ∧ B1.size = B.size := addBlock_offsets e
        refine orderFold_eq h hA l f B1 (fun x hx => h1 x (by simp [hx])) fun x hx => ?_
        obtain ⟨b1, b2, b3⟩ := h2 x (by simp [hx])
        exact ⟨b1, b2, fun B' e1 e2 => b3 B' (e1.trans hs.1) (e2.trans hs.2)⟩

section
variable {M : Verif.QN.Name → Int} {u : List Verif.QN.Name} {env : Key → List (Verif.QN.QN × Nat)}

theorem goodIs_perm {L R : IndexSet} (h : L.Perm R) (hR : GoodIs M u env R) : GoodIs M u env L :=
  ⟨(h.map _).nodup_iff.2 hR.nodup, fun I hI => hR.env I (h.mem_iff.1 hI), fun I hI => hR.pos I (h.mem_iff.1 hI), fun I hI => hR.ne I (h.mem_iff.1 hI),
    fun I hI => hR.dir I (h.mem_iff.1 hI), ⟨hR.ok.1, fun I hI => hR.ok.2 I (h.mem_iff.1 hI)⟩⟩

/-- **C100, quantum numbers.** `permute(T,inds)` for a block-sparse tensor: the result has the indices of `T`, with their arrows, in the order of `inds`; all its elements are those of `T` for the
same values of the indices, and it is again a tensor with one flux and an ordered list of blocks. Partial as `C100_permute_partial`. -/
theorem C100_permute_qn_partial {fuel : Nat} {T : QTensor K} (hT : Good M u env fuel T) {d : QDense K} (hd : T.store = some d) {iset : IndexSet} (hk : (keys iset).Perm (keys T.is))
    (hmax : (((T.is.map fun I => (I.qns.map (·.2)).sum).prod : Nat) : Int) ≤ offMax) (hf : (T.is.map fun I => (I.qns.map (·.2)).sum).prod < fuel) :
    ∃ N d', permuteT fuel iset T = some (.ok N) ∧ N.store = some d' ∧ N.is.Perm T.is ∧ keys N.is = keys iset ∧ Good M u env fuel N ∧
      ∀ ρ : Key → Nat, (∀ I ∈ T.is, ρ I.key < (I.qns.map (·.2)).sum) →
        ∃ x, getElt d T.is (T.is.map fun I => ρ I.key) = .ok x ∧ getElt d' N.is (N.is.map fun I => ρ I.key) = .ok x := by
  have hn := hT.inds.nodup
  obtain ⟨P, hP, hp1, hp2, hp3⟩ := C16_calcPerm (keys T.is) (keys iset) hk.symm hn
  have hlen : T.is.length = iset.length := by simpa [keys] using hk.length_eq.symm
  have hA := hT.wf d hd
  have hval : ∀ {is : IndexSet} {ρ : Key → Nat}, (∀ I ∈ is, ρ I.key < (I.qns.map (·.2)).sum) → Valid (dims is) (is.map fun I => ρ I.key) := by
    intro is ρ hρ
    unfold Valid dims
    rw [List.forall₂_map_left_iff, List.forall₂_map_right_iff, List.forall₂_same]
    exact hρ
  unfold permuteT
  rw [if_neg (by simpa using hlen), hP]
  simp only
  by_cases ht : isTrivial P = true
  · rw [if_pos ht]
    refine ⟨T, d, rfl, hd, .refl _, Verif.Net.trivial_keys ht hp2 (by simp [keys, hlen]) hp3, hT, fun ρ hρ => ?_⟩
    obtain ⟨b, w, hb, hw, e⟩ := exists_glue (hval hρ)
    rw [e]
    exact ⟨_, getElt_glue hA hb hw, getElt_glue hA hb hw⟩
  · rw [if_neg ht]
    obtain ⟨Bis, hB, hLP, hpm, hkb⟩ := Verif.Net.permInds_ok hp1 (by rw [hp2]; simp [keys]) hlen hp3
    rw [hB, hd]
    simp only
    have hgB := goodIs_perm hpm hT.inds
    have hne : T.is ≠ [] := by
      intro e
      apply ht
      have : P = [] := List.eq_nil_of_length_eq_zero (by rw [hp2, e]; rfl)
      rw [this]; rfl
    have hneB : Bis ≠ [] := fun e => hne (List.perm_nil.1 (by rw [← e]; exact hpm.symm))
    have hM : Match P Bis T.is := ⟨hp1, by rw [hLP.2.1, hLP.2.2.1], hLP.2.1, fun i e I J hi hI hJ => by
      have := hLP.2.2.2 i e hi
      rw [hI, hJ] at this
      cases this; rfl⟩
    have hflux : ∀ {b : Block}, Valid (nb Bis) b → ∀ n, fluxVal T.is (pk P b) n = fluxVal Bis b n := fun hb n =>
      fluxVal_match hM (fun i e I J hi hI hJ => by
        have := hLP.2.2.2 i e hi
        rw [hI, hJ] at this
        cases this; exact ⟨rfl, rfl⟩) hb n
    have hposB : PosSectors Bis := fun I hI s hs => by
      obtain ⟨q, hq, rfl⟩ := List.mem_map.1 hs
      exact hgB.pos I hI q hq
    have hdims : (dims Bis).prod = (dims T.is).prod := (hpm.map _).prod_eq
    obtain ⟨div, hdiv, hdq, hdf⟩ := calcDiv_ok hT.inds.ok hA hne (hT.flux d hd)
    have hnb := nb_le_dims hposB
    have hf' : (dims T.is).prod < fuel := hf
    have hmax' : ((dims T.is).prod : Int) ≤ offMax := hmax
    obtain ⟨B, hB1, hB2, hB3, hB4⟩ := C21_ofDiv (K := K) hneB hgB.ne hgB.ok hdq fuel (by omega) (by omega)
    have hsz := size_le hB2
    -- the image of a block of `T`
    have himg : ∀ o ∈ d.offsets, ∃ o' ∈ B.offsets, pk P o'.block = o.block := by
      intro o ho
      have hv := hA.valid o ho
      obtain ⟨b, hb, hpb⟩ := pk_surj hp1 (b := o.block) (by rw [valid_length hv, hM.len2]; simp [nb])
      have hvb : Valid (nb Bis) b := hM.valid_rev hb (by rw [hpb]; exact hv)
      obtain ⟨o', ho', e⟩ := (hB4 b).2 ⟨by
        unfold Valid nb at hvb
        rw [List.forall₂_map_right_iff] at hvb
        exact hvb, fun n => by rw [← hflux hvb, hpb]; exact hdf o ho n⟩
      exact ⟨o', ho', by rw [e, hpb]⟩
    choose! f hf1 hf2 using himg
    have hlb : ∀ o ∈ B.offsets, o.block.length = P.length := fun o ho => by rw [valid_length (hB2.valid o ho), hM.len1]; simp [nb]
    have hfold := orderFold_eq (fuel := fuel) hM hA d.offsets f B (fun _ h => h) fun o ho =>
      ⟨hlb _ (hf1 o ho), hf2 o ho, fun B' e1 e2 => getBlock_mem (by rw [e1, e2]; exact hB2) (by rw [e1]; exact hf1 o ho)⟩
    obtain ⟨B', g1, g2, g3, g4⟩ := addFold_spec hM hposB hA (1 : K) (fuel := fuel) (d.offsets.map f) hB2 (by omega) (by omega)
      (fun o ho => by obtain ⟨x, hx, rfl⟩ := List.mem_map.1 ho; exact hf1 x hx)
      (by
        rw [List.map_map]
        refine List.Nodup.map_on ?_ (List.Nodup.of_map _ (sortedOff_nodup hA.sorted))
        intro x hx y hy e
        have : x.block = y.block := by rw [← hf2 x hx, ← hf2 y hy]; exact congrArg _ e
        exact hA.block_inj hx hy this)
    have hWB : WF Bis B'.offsets B'.size := by rw [g2, g3]; exact hB2
    refine ⟨⟨Bis, some B'⟩, B', ?_, rfl, hpm, hkb, ⟨hgB, (fun h => nomatch h), (fun x hx => by cases hx; exact hWB), fun x hx => ?_⟩, fun ρ hρ => ?_⟩
    · unfold orderQ
      rw [hB]
      simp only [hdiv, Run.lift, Run.bind_ok, hB1]
      rw [hfold, g1]
      rfl
    · cases hx
      intro o ho o' ho' n
      rw [g2] at ho ho'
      rw [((hB4 o.block).1 ⟨o, ho, rfl⟩).2 n, ((hB4 o'.block).1 ⟨o', ho', rfl⟩).2 n]
    · have hρB : ∀ I ∈ Bis, ρ I.key < (I.qns.map (·.2)).sum := fun I hI => hρ I (hpm.mem_iff.1 hI)
      obtain ⟨b, w, hb, hw, e⟩ := exists_glue (hval hρB)
      have hpk : (T.is.map fun I => ρ I.key) = pk P (Bis.map fun I => ρ I.key) := by
        refine List.ext_getElem? fun i => ?_
        by_cases hi : i < P.length
        · have hx := List.getElem?_eq_getElem hi
          have hlt : P[i] < Bis.length := by rw [← hM.len1]; exact hp1.lt (List.getElem_mem hi)
          rw [pk_get hx (by simpa using hlt), List.getElem?_map, List.getElem?_map, hLP.2.2.2 i _ hx]
        · rw [List.getElem?_eq_none (by rw [List.length_map, ← hM.len2]; omega), List.getElem?_eq_none (by rw [pk_length]; omega)]
      have hw2 : Valid (bext T.is (pk P b)) (pk P w) := by
        rw [hM.bext hb]
        exact Match.valid_pk hp1 (by rw [bext_length hb, hM.len1]) hw
      rw [hpk]
      simp only
      rw [e, ← hM.glue hb hw]
      refine ⟨_, getElt_glue hA (hM.valid hb) hw2, ?_⟩
      rw [getElt_glue hWB hb hw, g4 b w hb hw]
      have h0 : elem B Bis b w = 0 := by unfold elem; split <;> simp [hB3]
      rw [h0]
      by_cases hm : b ∈ (d.offsets.map f).map (·.block)
      · rw [if_pos hm]; simp
      · rw [if_neg hm, elem_zero_of_notMem hA (hM.valid hb)]
        intro hc
        obtain ⟨o, ho, eo⟩ := List.mem_map.1 hc
        apply hm
        rw [List.map_map]
        refine List.mem_map.2 ⟨o, ho, ?_⟩
        exact pk_inj hp1 (hlb _ (hf1 o ho)) (by rw [valid_length hb, hM.len1]; simp [nb]) ((hf2 o ho).trans eo)

/-- **C100.** A tensor whose storage is not allocated yet gets its indices in the new order. -/
theorem C100_permute_unset {fuel : Nat} {T : QTensor K} (hT : Good M u env fuel T) (hd : T.store = none) {iset : IndexSet} (hk : (keys iset).Perm (keys T.is)) :
    ∃ N, permuteT fuel iset T = some (.ok N) ∧ N.store = none ∧ N.is.Perm T.is ∧ keys N.is = keys iset := by
  obtain ⟨P, hP, hp1, hp2, hp3⟩ := C16_calcPerm (keys T.is) (keys iset) hk.symm hT.inds.nodup
  have hlen : T.is.length = iset.length := by simpa [keys] using hk.length_eq.symm
  unfold permuteT
  rw [if_neg (by simpa using hlen), hP]
  simp only
  by_cases ht : isTrivial P = true
  · rw [if_pos ht]
    exact ⟨T, rfl, hd, .refl _, Verif.Net.trivial_keys ht hp2 (by simp [keys, hlen]) hp3⟩
  · rw [if_neg ht]
    obtain ⟨Bis, hB, -, hpm, hkb⟩ := Verif.Net.permInds_ok hp1 (by rw [hp2]; simp [keys]) hlen hp3
    rw [hB, hd]
    exact ⟨⟨Bis, none⟩, rfl, rfl, hpm, hkb⟩

end

/-- **C100.** With quantum numbers as well, other indices are an error. -/
theorem C100_mismatch_qn (T : QTensor K) {iset : IndexSet} (hn : (keys iset).Nodup) (h : ¬ (keys iset).Perm (keys T.is)) (fuel : Nat) : permuteT fuel iset T = some .throw := by
  unfold permuteT
  by_cases hl : T.is.length = iset.length
  · rw [if_neg (by simpa using hl), Verif.Net.calcPerm_bad hn hl h]
  · rw [if_pos hl]

end Verif.QDense

/-! ## Cases -/

namespace Verif.Net

namespace PermuteEx

open DirectSumEx (i j s ext okIs)

/-- `A(i,s,j)`. -/
def A : DS Int := ⟨[i, s, j], 12, fun a => a⟩

example : NcProdEx.cells ((IT.dense A).permute 100 [j, i, s]) = some (.ok ([2, 1, 3], [0, 4, 8, 1, 5, 9, 2, 6, 10, 3, 7, 11])) := by decide +kernel
example : NcProdEx.cells ((IT.dense A).permute 100 [i, s, j]) = some (.ok ([1, 3, 2], [0, 1, 2, 3, 4, 5, 6, 7, 8, 9, 10, 11])) := by decide +kernel
example : NcProdEx.cells ((IT.diag ⟨[i, s, j], [5, 6], 0, 2⟩ : IT Int).permute 100 [j, i, s]) = some (.ok ([2, 1, 3], [5, 6])) := by decide +kernel
example : NcProdEx.cells ((IT.dense A).permute 100 [j, i]) = some .throw := by decide +kernel
example : NcProdEx.cells ((IT.dense A).permute 100 [j, i, DiagEx.ix 8 2]) = some .throw := by decide +kernel

theorem okA : A.OK ext := ⟨okIs _ (by decide +kernel), rfl⟩

/-- The hypotheses are met. -/
example : (IT.dense A).OK ext ∧ (Verif.Index.IndexSet.keys [j, i, s]).Perm (Verif.Index.IndexSet.keys (IT.dense A).is) ∧ ((A.is.map (·.dim)).prod : Int) ≤ Verif.Tensor.offMax :=
  ⟨okA, by decide +kernel, by decide +kernel⟩

open Verif.QDense in
/-- With quantum numbers. -/
def qrun (iset : Verif.Index.IndexSet) (T : QTensor Int) : Option (Res (List Nat × List (List Nat) × List Int)) :=
  match permuteT 100 iset T with
  | some (.ok ⟨L, some C⟩) => some (.ok (L.map (·.id), C.offsets.map (·.block), (List.range C.size).map fun (a : Nat) => C.data a))
  | some (.ok ⟨L, none⟩) => some (.ok (L.map (·.id), [], []))
  | some .throw => some .throw
  | some .ub => some .ub
  | none => none

open Verif.QDense in
example : qrun [exI 2 (-1), exI 1 1] ⟨[exI 1 1, exI 2 (-1)], some exD2⟩ = some (.ok ([2, 1], [[0, 0], [1, 1]], [1, 3, 2, 4, 7])) := by decide +kernel
open Verif.QDense in
example : qrun [exI 2 (-1), exI 1 1] ⟨[exI 1 1, exI 2 (-1)], some exD⟩ = some (.ok ([2, 1], [[0, 0], [1, 1]], [0, 0, 0, 0, 7])) := by decide +kernel
open Verif.QDense in
example : qrun [exI 2 (-1), exI 3 1] ⟨[exI 1 1, exI 2 (-1)], some exD⟩ = some .throw := by decide +kernel

open Verif.QDense in
/-- The hypotheses are met with quantum numbers. -/
example : Good (fun _ => 1) [Verif.TagSet.Tag.ofBytes [83, 122]] exEnv 100 (⟨[exI 1 1, exI 2 (-1)], some exD⟩ : QTensor Int) := by
  refine ⟨exGoodIs (by decide) (by
    intro I hI
    have : I = exI 1 1 ∨ I = exI 2 (-1) := by simpa using hI
    rcases this with rfl | rfl <;> exact ⟨rfl, by decide⟩), by simp, ?_, ?_⟩
  · intro d hd; cases hd; exact exD_wf
  · intro d hd; cases hd
    intro o ho o' ho' n
    have h1 : o = ⟨[1, 1], 0⟩ := by simpa [exD] using ho
    have h2 : o' = ⟨[1, 1], 0⟩ := by simpa [exD] using ho'
    rw [h1, h2]

end PermuteEx

open Verif.Tensor.Permutation Verif.Index.IndexSet in
open DirectSumEx (i s ext okIs) in
/-- `permute` with a repeated index is not an error although an index of the tensor is missing: a diagonal `T(i,s)` permuted to `(i,i)` is returned with a default constructed Index of
dimension 1 in the place of `i`. -/
theorem C100_repeated_counterexample :
    ∃ T N : DG Int, T.OK ext ∧ T.is = [i, s] ∧ (∀ fuel, (IT.diag T).permute fuel [i, i] = some (.ok (.diag N))) ∧ N.is = [noIndex, s] :=
  ⟨⟨[i, s], [5, 6], 0, 2⟩, ⟨[noIndex, s], [5, 6], 0, 2⟩, ⟨okIs _ (by decide +kernel), by decide, .inr ⟨i, by decide, rfl⟩, .inr rfl⟩, rfl, fun _ => by
    simp only [IT.permute, IT.is, show calcPerm (keys [i, s]) (keys [i, i]) = .ok [1, 1] by decide +kernel, show permInds [1, 1] [i, s] = .ok [noIndex, s] by decide +kernel,
      show isTrivial [1, 1] = false by decide]
    rfl, rfl⟩

end Verif.Net
