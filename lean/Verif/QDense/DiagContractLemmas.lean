import Verif.QDense.DiagContract

/-!
# Lemmas on products of diagonal and block-sparse tensors
-/

namespace Verif.QDense

open Verif.Index (Index IndexSet)
open Verif.Index.IndexSet (keys computeLabels contractIS Key prodInds)
open Verif.Tensor
open Verif.Tensor.Range
open Verif.Net (DG DS runSteps dot replaceIndex isReplaceDelta prodVal' contractDiagPartial contractDiagFull IsOK LabOK)

section
variable {K : Type*} [CommRing K] [DecidableEq K]

/-! ## The loops, started anywhere -/

omit [DecidableEq K] in
theorem runSteps_more {nB nC nB' nC' : Nat} {B : Int → K} (hB : nB ≤ nB') (hC : nC ≤ nC') (C0 : Int → K) :
    ∀ (l : List (Int × Int × K)) (r m : Int → K), runSteps nB nC B l r = .ok m →
      runSteps nB' nC' B l (fun x => C0 x + r x) = .ok (fun x => C0 x + m x) ∧ ∀ x : Int, ¬ (0 ≤ x ∧ x < nC) → m x = r x
  | [], r, m, h => by
    cases h
    exact ⟨rfl, fun _ _ => rfl⟩
  | (c, b, a) :: l, r, m, h => by
    rw [runSteps] at h
    by_cases hc : 0 ≤ c ∧ c < nC ∧ 0 ≤ b ∧ b < nB
    · rw [if_pos hc] at h
      obtain ⟨h1, h2⟩ := runSteps_more hB hC C0 l _ m h
      refine ⟨?_, fun x hx => ?_⟩
      · rw [runSteps, if_pos (by omega), ← h1]
        congr 1
        funext x
        by_cases hx : x = c
        · subst hx; simp [add_assoc]
        · simp [Function.update_of_ne hx]
      · rw [h2 x hx, Function.update_of_ne]
        rintro rfl
        exact hx ⟨hc.1, hc.2.1⟩
    · rw [if_neg hc] at h
      cases h

theorem startOff_zero {al : List Int} {starts : List Nat} (h : ∀ s ∈ starts, s = 0) (z : List (IndStr × Int)) : startOff al starts z = 0 := by
  unfold startOff
  apply List.sum_eq_zero
  intro x hx
  obtain ⟨p, _, rfl⟩ := List.mem_map.1 hx
  have : starts.getD (findIndex al p.2).toNat 0 = 0 := by
    rw [List.getD_eq_getElem?_getD]
    cases hs : starts[(findIndex al p.2).toNat]? with
    | none => rfl
    | some y => exact h y (List.mem_of_getElem? hs)
  rw [this, Nat.zero_mul]

omit [DecidableEq K] in
/-- With starts at zero, more memory, and elements already there. -/
theorem partialS_of {fuel nA : Nat} {A A' : Nat → K} {al : List Int} {Rb : Range} {nB : Nat} {B : Int → K} {bl : List Int} {Rc : Range} {nC : Nat}
    {cl : List Int} {m : Int → K} (h : contractDiagPartial fuel nA A al Rb nB B bl Rc nC (fun _ => 0) cl = some (.ok m))
    {starts : List Nat} (hs : ∀ s ∈ starts, s = 0) {nB' nC' : Nat} (hB : nB ≤ nB') (hC : nC ≤ nC') (hA : ∀ J < nA, A' J = A J) (C0 : Int → K) :
    contractDiagPartialS fuel nA A' al starts Rb nB' B bl Rc nC' C0 cl = some (.ok fun x => C0 x + m x) ∧
      ∀ x : Int, ¬ (0 ≤ x ∧ x < nC) → m x = 0 := by
  unfold contractDiagPartial at h
  unfold contractDiagPartialS
  simp only [startOff_zero hs, Nat.zero_add] at h ⊢
  split at h
  · cases h
  · next hc =>
    rw [if_neg hc]
    obtain ⟨gs, h1, h2⟩ := Run.bind_eq_ok.1 h
    rw [h1, Run.bind_ok]
    have h2' := Option.some.inj h2
    obtain ⟨g1, g2⟩ := runSteps_more hB hC C0 _ _ _ h2'
    simp only [add_zero] at g1
    refine ⟨?_, g2⟩
    rw [← g1]
    congr 3
    funext g
    exact List.map_congr_left fun J hJ => by rw [hA J (List.mem_range.1 hJ)]

omit [DecidableEq K] in
theorem fullS_of {nA : Nat} {A A' : Nat → K} {al : List Int} {Rb : Range} {nB : Nat} {B : Int → K} {bl : List Int} {nC : Nat} {m : Int → K}
    (h : contractDiagFull nA A al Rb nB B bl nC (fun _ => 0) = .ok m) {starts : List Nat} (hs : ∀ s ∈ starts, s = 0) {nB' : Nat} (hB : nB ≤ nB')
    (hA : ∀ J < nA, A' J = A J) (C0 : Int → K) :
    contractDiagFullS nA A' al starts Rb nB' B bl nC C0 = .ok (fun x => C0 x + m x) ∧ ∀ x : Int, ¬ (0 ≤ x ∧ x < nC) → m x = 0 := by
  unfold contractDiagFull at h
  unfold contractDiagFullS
  simp only [startOff_zero hs, Nat.zero_add] at h ⊢
  obtain ⟨g1, g2⟩ := runSteps_more hB le_rfl C0 _ _ _ h
  simp only [add_zero] at g1
  refine ⟨?_, g2⟩
  rw [← g1]
  congr 1
  exact List.map_congr_left fun J hJ => by rw [hA J (List.mem_range.1 hJ)]

/-! ## Blocks as functions of the index -/

/-- Sectors of the indices by their identity. -/
def SzOK (sz : Key → List Nat) (is : IndexSet) : Prop := ∀ I ∈ is, szs I = sz I.key

/-- The block with sector `β k` of the index `k`. -/
def blk (is : IndexSet) (β : Key → Nat) : Block := is.map fun I => β I.key

/-- The indices of the block as indices of their own. -/
def bI (sz : Key → List Nat) (is : IndexSet) (β : Key → Nat) : IndexSet :=
  is.map fun I => { I with dim := (sz I.key).getD (β I.key) 0, qns := [] }

theorem keys_bI (sz : Key → List Nat) (is : IndexSet) (β : Key → Nat) : keys (bI sz is β) = keys is := by
  unfold keys bI
  rw [List.map_map]
  rfl

variable {sz : Key → List Nat} {is : IndexSet}

theorem dims_bI (h : SzOK sz is) (β : Key → Nat) : (bI sz is β).map (·.dim) = bext is (blk is β) := by
  unfold bI bext blk
  rw [List.map_map, List.zipWith_map_right, List.zipWith_self]
  refine List.map_congr_left fun I hI => ?_
  simp only [Function.comp, bsize, h I hI]

theorem glue_blk (h : SzOK sz is) (β υ : Key → Nat) :
    glue is (blk is β) (blk is υ) = is.map fun I => ((sz I.key).take (β I.key)).sum + υ I.key := by
  induction is with
  | nil => rfl
  | cons I is ih =>
    simp only [blk, List.map_cons, glue, gl, h I (by simp)]
    rw [← ih fun J hJ => h J (by simp [hJ])]
    rfl

theorem valid_blk (h : SzOK sz is) (β : Key → Nat) : Valid (nb is) (blk is β) ↔ ∀ I ∈ is, β I.key < (sz I.key).length := by
  induction is with
  | nil => simp [blk, nb, Valid]
  | cons I is ih =>
    have hI := h I (by simp)
    rw [show blk (I :: is) β = β I.key :: blk is β from rfl, show nb (I :: is) = I.nblock :: nb is from rfl]
    unfold Valid
    rw [List.forall₂_cons]
    have := ih fun J hJ => h J (by simp [hJ])
    unfold Valid at this
    have hl : (sz I.key).length = I.nblock := by rw [← hI, szs_length]
    rw [this, List.forall_mem_cons, hl]

theorem valid_bext_blk (h : SzOK sz is) (β υ : Key → Nat) :
    Valid (bext is (blk is β)) (blk is υ) ↔ ∀ I ∈ is, υ I.key < (sz I.key).getD (β I.key) 0 := by
  induction is with
  | nil => simp [blk, bext, Valid]
  | cons I is ih =>
    have hI := h I (by simp)
    rw [show blk (I :: is) υ = υ I.key :: blk is υ from rfl, show bext (I :: is) (blk (I :: is) β) = bsize I (β I.key) :: bext is (blk is β) from rfl]
    unfold Valid
    rw [List.forall₂_cons]
    have := ih fun J hJ => h J (by simp [hJ])
    unfold Valid at this
    rw [this, bsize, hI]
    simp

theorem exists_blk (hnd : (keys is).Nodup) {b : Block} (hb : b.length = is.length) : ∃ β : Key → Nat, b = blk is β := by
  obtain ⟨f, hf⟩ := Verif.Net.exists_assign is hnd b hb
  exact ⟨f, hf⟩

theorem blk_congr {β β' : Key → Nat} (h : ∀ I ∈ is, β I.key = β' I.key) : blk is β = blk is β' := List.map_congr_left h

theorem blk_inj {β β' : Key → Nat} (h : blk is β = blk is β') : ∀ k ∈ keys is, β k = β' k := by
  intro k hk
  obtain ⟨I, hI, rfl⟩ := List.mem_map.1 hk
  exact List.map_inj_left.1 h I hI

theorem find_blk {J : Index} (β : Key → Nat) :
    (J.key ∈ keys is ∧ ∃ i, is.findIdx? (fun I => I.eq J) = some i ∧ (blk is β).getD i 0 = β J.key) ∨
      (J.key ∉ keys is ∧ is.findIdx? (fun I => I.eq J) = none) := by
  induction is with
  | nil => right; simp [keys]
  | cons I is ih =>
    rw [List.findIdx?_cons]
    by_cases hI : I.eq J = true
    · left
      have hk := (Index.eq_iff).1 hI
      refine ⟨by simp [keys, hk], 0, by rw [if_pos hI], ?_⟩
      simp [blk, hk]
    · rw [if_neg hI]
      have hk : I.key ≠ J.key := fun e => hI (Index.eq_iff.2 e)
      rcases ih with ⟨h1, i, h2, h3⟩ | ⟨h1, h2⟩
      · left
        refine ⟨by simp only [keys, List.map_cons, List.mem_cons]; exact Or.inr h1, i + 1, by rw [h2]; rfl, ?_⟩
        simpa [blk] using h3
      · right
        refine ⟨?_, by rw [h2]; rfl⟩
        simp only [keys, List.map_cons, List.mem_cons, not_or]
        exact ⟨Ne.symm hk, h1⟩

/-- Where the block of the result comes from. -/
theorem cSource_blk {Tis Dis : IndexSet} : ∀ (Nis : IndexSet), (∀ I ∈ Nis, I.key ∈ keys Tis ∨ I.key ∈ keys Dis) →
    ∃ src, cSource Tis Dis Nis = .ok src ∧ ∀ β, cBlock src (blk Tis β) (blk Dis β) = blk Nis β
  | [], _ => ⟨[], rfl, fun _ => rfl⟩
  | I :: Nis, h => by
    obtain ⟨src, h1, h2⟩ := cSource_blk Nis fun J hJ => h J (by simp [hJ])
    unfold cSource Verif.Index.IndexSet.indexPosition
    rcases find_blk (is := Tis) (J := I) (fun _ => 0) with ⟨a1, i, a2, _⟩ | ⟨a1, a2⟩
    · rw [a2]
      simp only [h1, Res.bind_ok]
      refine ⟨_, rfl, fun β => ?_⟩
      rcases find_blk (is := Tis) (J := I) β with ⟨_, i', a2', a3'⟩ | ⟨_, a2'⟩
      · rw [a2] at a2'
        cases a2'
        simp only [cBlock, List.map_cons] at h2 ⊢
        rw [h2 β, a3']
        rfl
      · rw [a2] at a2'; cases a2'
    · rw [a2]
      rcases find_blk (is := Dis) (J := I) (fun _ => 0) with ⟨b1, i, b2, _⟩ | ⟨b1, b2⟩
      · rw [b2]
        simp only [h1, Res.bind_ok]
        refine ⟨_, rfl, fun β => ?_⟩
        rcases find_blk (is := Dis) (J := I) β with ⟨_, i', a2', a3'⟩ | ⟨_, a2'⟩
        · rw [b2] at a2'
          cases a2'
          simp only [cBlock, List.map_cons] at h2 ⊢
          rw [h2 β, a3']
          rfl
        · rw [b2] at a2'; cases a2'
      · exact absurd (h I (by simp)) (by simp [a1, b1])

/-! ## Bounds of the diagonal blocks -/

theorem boundsLoop_le {zs : List Nat} : ∀ (is : IndexSet), (∀ I ∈ is, szs I = zs) → ∀ (b : Block), Valid (nb is) b → ∀ (a : Nat) (e : Option Nat),
    (e = none → is ≠ []) → ∃ a' e', boundsLoop is b (a, e) = .ok (a', some e') ∧ a ≤ a' ∧ (∀ x, e = some x → e' ≤ x) ∧
      ∀ n ∈ b, (zs.take n).sum ≤ a' ∧ e' ≤ (zs.take n).sum + zs.getD n 0
  | [], _, b, hb, a, e, he => by
    cases hb
    cases e with
    | none => exact absurd rfl (he rfl)
    | some x => exact ⟨a, x, rfl, le_rfl, fun y h => by cases h; exact le_rfl, by simp⟩
  | I :: is, hz, b, hb, a, e, _ => by
    cases hb with
    | @cons n _ bs _ h1 h2 =>
      have hI := hz I (by simp)
      have hnI : n < I.nblock := h1
      have hbs : bsize I n = zs.getD n 0 := by rw [bsize, hI]
      simp only [boundsLoop, sectorStart_ok (Nat.le_of_lt hnI), Res.bind_ok, blocksize0_ok hnI, hbs, hI]
      cases e with
      | none =>
        obtain ⟨a', e', g1, g2, g3, g4⟩ := boundsLoop_le is (fun J hJ => hz J (by simp [hJ])) bs h2 (max a (zs.take n).sum)
          (some ((zs.take n).sum + zs.getD n 0)) (by simp)
        have g3' := g3 _ rfl
        refine ⟨a', e', g1, by omega, by simp, fun k hk => ?_⟩
        rcases List.mem_cons.1 hk with rfl | hk
        · exact ⟨by omega, g3'⟩
        · exact g4 k hk
      | some x =>
        obtain ⟨a', e', g1, g2, g3, g4⟩ := boundsLoop_le is (fun J hJ => hz J (by simp [hJ])) bs h2 (max a (zs.take n).sum)
          (some (min x ((zs.take n).sum + zs.getD n 0))) (by simp)
        have g3' := g3 _ rfl
        refine ⟨a', e', g1, by omega, fun y hy => ?_, fun k hk => ?_⟩
        · cases hy; omega
        · rcases List.mem_cons.1 hk with rfl | hk
          · exact ⟨by omega, by omega⟩
          · exact g4 k hk

theorem blockStarts_ok {zs : List Nat} : ∀ (is : IndexSet), (∀ I ∈ is, szs I = zs) → ∀ (b : Block), Valid (nb is) b →
    blockStarts is b = .ok (b.map fun n => (zs.take n).sum)
  | [], _, b, hb => by cases hb; rfl
  | I :: is, hz, b, hb => by
    cases hb with
    | @cons n _ bs _ h1 h2 =>
      have hnI : n < I.nblock := h1
      simp only [blockStarts, sectorStart_ok (Nat.le_of_lt hnI), Res.bind_ok, blockStarts_ok is (fun J hJ => hz J (by simp [hJ])) bs h2, hz I (by simp), List.map_cons]

theorem take_sum_mono {zs : List Nat} {n n' : Nat} (h : n < n') (hn : n < zs.length) : (zs.take n).sum + zs.getD n 0 ≤ (zs.take n').sum := by
  have h1 : (zs.take (n + 1)).sum = (zs.take n).sum + zs.getD n 0 := by
    rw [List.take_add_one, List.sum_append, List.getElem?_eq_getElem hn]
    simp [List.getD_eq_getElem?_getD, List.getElem?_eq_getElem hn]
  rw [← h1]
  have h2 : zs.take (n + 1) = (zs.take n').take (n + 1) := by rw [List.take_take]; congr 1; omega
  conv_rhs => rw [← List.take_append_drop (n + 1) (zs.take n'), List.sum_append, ← h2]
  omega

/-- A block with two different sectors has no diagonal element. -/
theorem bounds_off {zs : List Nat} {is : IndexSet} (hne : is ≠ []) (hz : ∀ I ∈ is, szs I = zs) {b : Block} (hb : Valid (nb is) b)
    (h : ¬ ∃ n, b = List.replicate is.length n) : ∃ nb ne ss, diagBlockBounds is b = .ok (nb, ne, ss) ∧ nb ≥ ne := by
  obtain ⟨a, e, g1, _, _, g4⟩ := boundsLoop_le is hz b hb 0 none (fun _ => hne)
  refine ⟨a, e, (b.map fun n => (zs.take n).sum).map fun s => a - s, by unfold diagBlockBounds; rw [g1]; simp only [Res.bind_ok, blockStarts_ok is hz b hb, Res.map], ?_⟩
  have hlt : ∀ n ∈ b, n < zs.length := by
    intro n hn
    obtain ⟨i, hi, rfl⟩ := List.mem_iff_getElem.1 hn
    have hl : i < is.length := by have := valid_length hb; simp [nb] at this; omega
    have := (valid_iff.1 hb).2 i b[i] ((nb is)[i]'(by simpa [nb] using hl)) (List.getElem?_eq_getElem _) (List.getElem?_eq_getElem _)
    have hI := hz is[i] (List.getElem_mem _)
    rw [← hI, szs_length]
    simpa [nb] using this
  have : ∃ n ∈ b, ∃ n' ∈ b, n < n' := by
    by_contra hc
    apply h
    refine ⟨b.headD 0, ?_⟩
    rw [List.eq_replicate_iff]
    refine ⟨by have := valid_length hb; simpa [nb] using this, fun x hx => ?_⟩
    cases b with
    | nil => simp at hx
    | cons y b =>
      simp only [List.headD_cons]
      by_contra hxy
      rcases Nat.lt_or_gt_of_ne hxy with h' | h'
      · exact hc ⟨x, hx, y, by simp, h'⟩
      · exact hc ⟨y, by simp, x, hx, h'⟩
  obtain ⟨n, hn, n', hn', hnn⟩ := this
  have h1 := g4 n hn
  have h2 := g4 n' hn'
  have h3 := take_sum_mono hnn (hlt n hn)
  omega

theorem bounds_on {zs : List Nat} {is : IndexSet} (hne : is ≠ []) (hz : ∀ I ∈ is, szs I = zs) {n : Nat} (hn : n < zs.length) :
    diagBlockBounds is (List.replicate is.length n) =
      .ok ((zs.take n).sum, (zs.take n).sum + zs.getD n 0, List.replicate is.length 0) := by
  unfold diagBlockBounds
  rw [boundsLoop_rep hn is hz none (fun _ => hne) (by simp) 0 (by omega) (fun h => absurd h hne)]
  simp only [Res.bind_ok, blockStarts_ok is hz _ (valid_rep hz hn), Res.map, List.map_replicate, Nat.sub_self]

/-! ## The counter -/

/-- The blocks of the diagonal tensor which `couB` goes through. -/
theorem couB_ok {Tis Dis : IndexSet} (hne : Dis ≠ []) (hnd : (keys Dis).Nodup) (hpos : ∀ J ∈ Dis, 0 < J.nblock) (β : Key → Nat)
    (hβ : ∀ J ∈ Dis, J.key ∈ keys Tis → β J.key < J.nblock)
    (fuel : Nat) (hf : (nb Dis).prod < fuel) :
    ∃ gs, GCounter.forEach fuel (couB Tis Dis (blk Tis β)) = some (.ok gs) ∧
      (gs.map fun g => g.i.map Int.toNat).Nodup ∧
      ∀ b, b ∈ (gs.map fun g => g.i.map Int.toNat) ↔ ∃ γ : Key → Nat, b = blk Dis γ ∧ ∀ J ∈ Dis, γ J.key < J.nblock ∧ (J.key ∈ keys Tis → γ J.key = β J.key) := by
  set fs : List Int := Dis.map fun J => if J.key ∈ keys Tis then (β J.key : Int) else 0 with hfs
  set ds : List Nat := Dis.map fun J => if J.key ∈ keys Tis then 1 else J.nblock with hds
  have hfind : ∀ (J : Index) (x : Int), sectorIn Tis (blk Tis β) J x = if J.key ∈ keys Tis then (β J.key : Int) else x := by
    intro J x
    unfold sectorIn
    rcases find_blk (is := Tis) (J := J) β with ⟨a1, i, a2, a3⟩ | ⟨a1, a2⟩
    · rw [a2, if_pos a1]; simp only [a3]
    · rw [a2, if_neg a1]
  have hc : couB Tis Dis (blk Tis β) = ⟨fs, List.zipWith (fun (f : Int) (d : Nat) => f + (d : Int) - 1) fs ds, fs, 0⟩ := by
    unfold couB
    simp only [hfind]
    have : List.zipWith (fun (f : Int) (d : Nat) => f + (d : Int) - 1) fs ds =
        Dis.map fun J => if J.key ∈ keys Tis then (β J.key : Int) else (J.nblock : Int) - 1 := by
      rw [hfs, hds, List.zipWith_map, List.zipWith_self]
      refine List.map_congr_left fun J _ => ?_
      split <;> simp
    rw [this]
  have hdp : ∀ d ∈ ds, 0 < d := by
    intro d hd
    obtain ⟨J, hJ, rfl⟩ := List.mem_map.1 hd
    split
    · exact Nat.one_pos
    · exact hpos J hJ
  have hple : ds.prod ≤ (nb Dis).prod := by
    rw [hds]
    unfold nb
    have : ∀ (l : IndexSet), (∀ J ∈ l, 0 < J.nblock) → (l.map fun J => if J.key ∈ keys Tis then 1 else J.nblock).prod ≤ (l.map (·.nblock)).prod := by
      intro l
      induction l with
      | nil => simp
      | cons J l ih =>
        intro h
        simp only [List.map_cons, List.prod_cons]
        refine Nat.mul_le_mul ?_ (ih fun I hI => h I (by simp [hI]))
        split
        · exact h J (by simp)
        · exact le_rfl
    exact this Dis hpos
  obtain ⟨gs, h1, h2, _⟩ := C15_gcounter fs ds (by simp [hfs, hds]) (by simpa [hds] using hne) hdp fuel (by omega)
  have hL : (gs.map fun g => g.i.map Int.toNat) = (allInds ds).map fun u => List.zipWith (fun J x => (if J.key ∈ keys Tis then β J.key else 0) + x) Dis u := by
    have : (gs.map fun g => g.i.map Int.toNat) = (gs.map (·.i)).map fun l => l.map Int.toNat := by rw [List.map_map]; rfl
    rw [this, h2, List.map_map]
    refine List.map_congr_left fun u _ => ?_
    simp only [Function.comp, hfs, List.zipWith_map_left, List.map_zipWith]
    congr 1
    funext J x
    split <;> omega
  refine ⟨gs, by rw [hc]; exact h1, ?_, fun b => ?_⟩
  · rw [hL]
    refine (allInds_nodup ds).map_on fun u hu v hv e => ?_
    have hul := valid_length (mem_allInds.1 hu)
    have hvl := valid_length (mem_allInds.1 hv)
    have hdl : ds.length = Dis.length := by simp [hds]
    apply List.ext_getElem (by omega)
    intro i hi1 hi2
    have := congrArg (fun l => l[i]?) e
    simp only [List.getElem?_zipWith] at this
    rw [List.getElem?_eq_getElem (by omega : i < Dis.length), List.getElem?_eq_getElem hi1, List.getElem?_eq_getElem hi2] at this
    simpa using this
  · rw [hL]
    constructor
    · intro hb
      obtain ⟨u, hu, rfl⟩ := List.mem_map.1 hb
      have huv := mem_allInds.1 hu
      have hul : u.length = Dis.length := by rw [valid_length huv]; simp [hds]
      obtain ⟨υ, rfl⟩ := exists_blk hnd hul
      refine ⟨fun k => (if k ∈ keys Tis then β k else 0) + υ k, ?_, fun J hJ => ?_⟩
      · unfold blk
        rw [List.zipWith_map_right, List.zipWith_self]
      · have : υ J.key < if J.key ∈ keys Tis then 1 else J.nblock := by
          unfold Valid blk at huv
          rw [hds, List.forall₂_map_left_iff, List.forall₂_map_right_iff] at huv
          have := List.forall₂_same.1 huv J hJ
          exact this
        dsimp only
        split
        · next hk => rw [if_pos hk] at this; have := hβ J hJ hk; exact ⟨by omega, fun _ => by omega⟩
        · next hk => rw [if_neg hk] at this; exact ⟨by omega, fun h => absurd h hk⟩
    · rintro ⟨γ, rfl, hγ⟩
      refine List.mem_map.2 ⟨blk Dis fun k => γ k - if k ∈ keys Tis then β k else 0, mem_allInds.2 ?_, ?_⟩
      · unfold Valid blk
        rw [hds, List.forall₂_map_left_iff, List.forall₂_map_right_iff]
        refine List.forall₂_same.2 fun J hJ => ?_
        have := hγ J hJ
        dsimp only
        split
        · next hk => rw [this.2 hk]; omega
        · omega
      · unfold blk
        rw [List.zipWith_map_right, List.zipWith_self]
        refine List.map_congr_left fun J hJ => ?_
        have := hγ J hJ
        dsimp only
        split
        · next hk => rw [this.2 hk]; omega
        · omega

end

end Verif.QDense
