import Verif.Tensor.ContractLemmas2

/-!
# What `CProps::compute` establishes
-/

namespace Verif.Tensor

open Range Permutation

/-- Labels as `contract` requires them: distinct within each tensor, and every label occurring on
exactly two of the three tensors. -/
structure LabelsOK (ai bi ci : List Int) : Prop where
  nda : ai.Nodup
  ndb : bi.Nodup
  ndc : ci.Nodup
  a : ∀ x ∈ ai, (x ∈ bi ↔ x ∉ ci)
  b : ∀ x ∈ bi, (x ∈ ai ↔ x ∉ ci)
  c : ∀ x ∈ ci, (x ∈ ai ↔ x ∉ bi)

/-- The situation in which `contract(CProps,...)` is run: `cc`, `uA`, `uB` are the contracted labels
and the remaining labels of `A` and `B`, in the order of the matrices that are multiplied. -/
structure Layout (p : CProps) (ai bi ci : List Int) (ext : Int → Nat) (cc uA uB : List Int) : Prop where
  A : (p.permuteA = true ∧ LabelPerm p.PA ai (cc ++ uA) ∧ p.newArange = init ((cc ++ uA).map ext)) ∨
    (p.permuteA = false ∧ ((CProps.contracted p.AtoC 0 = .ok true ∧ ai = cc ++ uA) ∨
      (CProps.contracted p.AtoC 0 = .ok false ∧ ai = uA ++ cc)))
  B : (p.permuteB = true ∧ LabelPerm p.PB bi (cc ++ uB) ∧ p.newBrange = init ((cc ++ uB).map ext)) ∨
    (p.permuteB = false ∧ ((CProps.contracted p.BtoC 0 = .ok true ∧ bi = cc ++ uB) ∨
      (CProps.contracted p.BtoC 0 = .ok false ∧ bi = uB ++ cc)))
  C : (p.permuteC = true ∧ LabelPerm p.PC (uA ++ uB) ci ∧ p.newCrange = init ((uA ++ uB).map ext) ∧
      ci ≠ uA ++ uB) ∨
    (p.permuteC = false ∧ ((p.ctrans = true ∧ ci = uB ++ uA) ∨ (p.ctrans = false ∧ ci = uA ++ uB)))
  dleft : p.dleft = (uA.map ext).prod
  dmid : p.dmid = (cc.map ext).prod
  dright : p.dright = (uB.map ext).prod
  permA : (cc ++ uA).Perm ai
  permB : (cc ++ uB).Perm bi
  permC : (uA ++ uB).Perm ci
  ordA : uA = ai.filter (· ∈ ci) ∨ uA = ci.filter (· ∈ ai)
  ordB : uB = bi.filter (· ∈ ci) ∨ uB = ci.filter (· ∈ bi)

namespace CProps

theorem vals_map (ci xi : List Int) :
    vals (xi.map (findIndex ci)) =
      (xi.filter (fun x => decide (0 ≤ findIndex ci x))).map (fun x => (findIndex ci x).toNat) := by
  unfold vals
  rw [List.filter_map, List.map_map]
  rfl

theorem filter_unc (ci xi : List Int) :
    xi.filter (fun x => decide (0 ≤ findIndex ci x)) = xi.filter (· ∈ ci) := by
  apply List.filter_congr
  intro x _
  have := @findIndex_neg ci x
  by_cases h : x ∈ ci
  · have : ¬ findIndex ci x < 0 := fun hh => (this.1 hh) h
    simp [h]; omega
  · have : findIndex ci x < 0 := this.2 h
    simp [h]; omega

theorem filter_con (ci xi : List Int) :
    xi.filter (fun x => decide (findIndex ci x < 0)) = xi.filter (· ∉ ci) := by
  apply List.filter_congr
  intro x _
  simp [findIndex_neg]

theorem labelPerm_pos {ci us : List Int} (hnd : ci.Nodup) (h : us.Perm ci) :
    LabelPerm (us.map (fun x => (findIndex ci x).toNat)) us ci := by
  have hget : ∀ x ∈ us, ∃ k : Nat, (findIndex ci x).toNat = k ∧ ci[k]? = some x := by
    intro x hx
    obtain ⟨k, hk, hk', _⟩ := findIndex_of_mem (h.mem_iff.1 hx)
    exact ⟨k, by rw [hk]; simp, hk'⟩
  refine ⟨isPerm_of_nodup ?_ ?_, by simp, h.length_eq, ?_⟩
  · refine List.Nodup.map_on ?_ (h.nodup_iff.2 hnd)
    intro x hx y hy hxy
    obtain ⟨k, hk, hk'⟩ := hget x hx
    obtain ⟨j, hj, hj'⟩ := hget y hy
    have : k = j := by omega
    subst this
    rw [hk'] at hj'; exact Option.some.inj hj'
  · intro d hd
    obtain ⟨x, hx, rfl⟩ := List.mem_map.1 hd
    obtain ⟨k, hk, hk'⟩ := hget x hx
    have := (List.getElem?_eq_some_iff.1 hk').1
    rw [List.length_map, h.length_eq]
    omega
  · intro i d hd
    rw [List.getElem?_map] at hd
    obtain ⟨x, hx, rfl⟩ := Option.map_eq_some_iff.1 hd
    obtain ⟨k, hk, hk'⟩ := hget x (List.mem_of_getElem? hx)
    rw [hx, hk, hk']

/-- a list is determined by its positions being `0,1,2,...` -/
theorem eq_of_pos_range {ci us : List Int} (h : us.Perm ci) (hnd : ci.Nodup)
    (hr : us.map (fun x => (findIndex ci x).toNat) = List.range us.length) : ci = us := by
  have hlp := labelPerm_pos hnd h
  apply List.ext_getElem?
  intro n
  by_cases hn : n < us.length
  · exact hlp.2.2.2 n n (by rw [hr]; simp [hn])
  · have := h.length_eq
    rw [List.getElem?_eq_none (by omega), List.getElem?_eq_none (by omega)]

theorem trivial_range {P : Permutation} (h : isTrivial P = true) : P = List.range P.length := by
  have := (C16_isTrivial P).1 h
  apply List.ext_getElem (by simp)
  intro n h1 h2
  rw [this n h1]; simp

/-- the three possibilities for `C` -/
theorem cLayout {ci uA uB : List Int} (hnd : ci.Nodup) (h : (uA ++ uB).Perm ci)
    (PC : Permutation) (hPC : PC = (uA ++ uB).map (fun x => (findIndex ci x).toNat)) :
    LabelPerm PC (uA ++ uB) ci ∧ (isTrivial PC = true → ci = uA ++ uB) ∧
    (isTrivial PC = false →
      (∃ c, uA.map (fun x => (findIndex ci x).toNat) = List.range' c uA.length) →
      (∃ c, uB.map (fun x => (findIndex ci x).toNat) = List.range' c uB.length) → ci = uB ++ uA) := by
  have hlp := labelPerm_pos hnd h
  rw [← hPC] at hlp
  refine ⟨hlp, ?_, ?_⟩
  · intro ht
    have := trivial_range ht
    refine eq_of_pos_range h hnd ?_
    rw [← hPC, this]; simp [hPC]
  · rintro ht ⟨a, ha⟩ ⟨b, hb⟩
    have hPC' : PC = List.range' a uA.length ++ List.range' b uB.length := by
      rw [hPC, List.map_append, ha, hb]
    have hP := hlp.1
    have hlen : List.length PC = uA.length + uB.length := by rw [hPC']; simp
    have hlt : ∀ x ∈ PC, x < uA.length + uB.length := fun x hx => by rw [← hlen]; exact hP.lt hx
    have hnd' := hP.nodup
    have hdisj : ∀ x, x ∈ List.range' a uA.length → x ∉ List.range' b uB.length := by
      rw [hPC'] at hnd'
      intro x h1 h2
      exact (List.nodup_append.1 hnd').2.2 x h1 x h2 rfl
    have hntriv : PC ≠ List.range (uA.length + uB.length) := by
      intro he
      have : isTrivial PC = true := by
        rw [C16_isTrivial]
        intro n hn
        simp [he]
      rw [this] at ht; exact absurd ht (by simp)
    -- some element is at position zero
    have hb0 : uB.length = 0 ∨ b = 0 := by
      by_contra hcon
      simp only [not_or] at hcon
      have h0 : (0 : Nat) ∈ PC := hP.mem (by omega)
      rw [hPC', List.mem_append, List.mem_range', List.mem_range'] at h0
      rcases h0 with ⟨i, hi, h0⟩ | ⟨i, hi, h0⟩
      · have ha0 : a = 0 := by omega
        -- then `b` is the length of the first part
        have hble : b + (uB.length - 1) < uA.length + uB.length := hlt _ (by
          rw [hPC', List.mem_append]; right; rw [List.mem_range']; exact ⟨uB.length - 1, by omega, by omega⟩)
        have hbge : uA.length ≤ b := by
          by_contra hlt'
          refine hdisj b ?_ ?_
          · rw [List.mem_range']; exact ⟨b, by omega, by omega⟩
          · rw [List.mem_range']; exact ⟨0, by omega, by omega⟩
        apply hntriv
        rw [hPC', ha0, show b = 0 + uA.length by omega, List.range_eq_range', ← List.range'_append]
        simp
      · omega
    have ha0 : uA.length = 0 ∨ a = uB.length := by
      by_contra hcon
      simp only [not_or] at hcon
      have hale : a + (uA.length - 1) < uA.length + uB.length := hlt _ (by
        rw [hPC', List.mem_append]; left; rw [List.mem_range']; exact ⟨uA.length - 1, by omega, by omega⟩)
      rcases Nat.lt_or_ge a uB.length with hlt' | hge
      · rcases hb0 with hb0 | hb0
        · omega
        · refine hdisj a ?_ ?_
          · rw [List.mem_range']; exact ⟨0, by omega, by omega⟩
          · rw [List.mem_range']; exact ⟨a, by omega, by omega⟩
      · omega
    refine eq_of_pos_range ((List.perm_append_comm).trans h) hnd ?_
    rw [List.map_append, ha, hb]
    have e1 : List.range' b uB.length = List.range' 0 uB.length := by
      rcases hb0 with h | h
      · rw [h]; rfl
      · rw [h]
    have e2 : List.range' a uA.length = List.range' uB.length uA.length := by
      rcases ha0 with h | h
      · rw [h]; rfl
      · rw [h]
    rw [e1, e2, List.range_eq_range', List.length_append, ← List.range'_append]
    simp

/-- permuting `A` (or `B`): contracted labels `cc` first, then the others in the order of `C` -/
theorem permuted_spec (ext : Int → Nat) (xi ci cc : List Int) (hx : xi.Nodup) (hc : ci.Nodup)
    (hcc : cc.Perm (xi.filter (· ∉ ci))) :
    ∃ P, LabelPerm P xi (cc ++ ci.filter (· ∈ xi)) ∧
      (calcLoop xi cc 0 (ident xi.length)).bind (fun P0 =>
        uncLoop xi ci 0 cc.length (List.replicate xi.length (-1)) P0) =
        .ok ((cc ++ ci.filter (· ∈ xi)).map (findIndex ci), P) ∧
      permuteExtents (init (xi.map ext)) P = .ok (init ((cc ++ ci.filter (· ∈ xi)).map ext)) ∧
      (cc ++ ci.filter (· ∈ xi)).Perm xi := by
  have hmemcc : ∀ x, x ∈ cc ↔ x ∈ xi ∧ x ∉ ci := by
    intro x; rw [hcc.mem_iff, List.mem_filter]; simp
  have hperm : xi.Perm (cc ++ ci.filter (· ∈ xi)) := by
    rw [List.perm_ext_iff_of_nodup hx]
    · intro x
      rw [List.mem_append, hmemcc, List.mem_filter]
      simp only [decide_eq_true_eq]
      constructor
      · intro h; by_cases hxc : x ∈ ci
        · exact Or.inr ⟨hxc, h⟩
        · exact Or.inl ⟨h, hxc⟩
      · rintro (h | h)
        · exact h.1
        · exact h.2
    · rw [List.nodup_append]
      refine ⟨hcc.nodup_iff.2 (hx.filter _), hc.filter _, ?_⟩
      intro a ha b hb hab
      subst hab
      exact ((hmemcc a).1 ha).2 (List.mem_filter.1 hb).1
  obtain ⟨P, hP, hP1, hP2, hP3⟩ := C16_calcPerm xi _ hperm hx
  have hlp : LabelPerm P xi (cc ++ ci.filter (· ∈ xi)) := ⟨hP1, hP2, hperm.length_eq, hP3⟩
  refine ⟨P, hlp, ?_, permuteExtents_spec ext hlp, hperm.symm⟩
  unfold calcPerm at hP
  rw [calcLoop_append] at hP
  obtain ⟨P0, h0, h1⟩ := Res.bind_eq_ok.1 hP
  rw [h0, Res.bind_ok]
  have hle := hperm.length_eq
  rw [List.length_append] at hle
  rw [Nat.zero_add] at h1
  have := uncLoop_spec xi ci hc [] ci rfl cc.length (List.replicate xi.length (-1)) P0 P (by simp)
    (by omega) h1
  rw [List.length_nil] at this
  rw [this, List.map_append]
  congr 3
  rw [List.take_replicate, Nat.min_eq_left (by omega)]
  symm
  rw [List.eq_replicate_iff]
  refine ⟨by simp, ?_⟩
  intro k hk
  obtain ⟨x, hx', rfl⟩ := List.mem_map.1 hk
  exact findIndex_of_notMem ((hmemcc x).1 hx').2

/-- positions found by `computePerms` -/
theorem abLoop_facts {ai bi ci : List Int} (h : LabelsOK ai bi ci) :
    let s := abLoop bi ai 0 ⟨[], 0, ai.length, bi.length⟩
    s.AtoB = ai.map (findIndex bi) ∧ s.ncont = (ai.filter (· ∉ ci)).length ∧
    s.ncont = (bi.filter (· ∉ ci)).length ∧
    s.Acstart = ai.findIdx (fun x => decide (findIndex ci x < 0)) ∧
    s.Bcstart = bi.findIdx (fun x => decide (findIndex ci x < 0)) ∧
    (ai.filter (· ∉ ci)).Perm (bi.filter (· ∉ ci)) := by
  intro s
  obtain ⟨h1, h2, h3, _, h5, h6, h7⟩ := abLoop_spec bi ai 0 ⟨[], 0, ai.length, bi.length⟩
  have hA : ai.filter (· ∈ bi) = ai.filter (· ∉ ci) :=
    List.filter_congr fun x hx => by simp [h.a x hx]
  have hperm : (ai.filter (· ∉ ci)).Perm (bi.filter (· ∉ ci)) := by
    rw [List.perm_ext_iff_of_nodup (h.nda.filter _) (h.ndb.filter _)]
    intro x
    rw [List.mem_filter, List.mem_filter]
    simp only [decide_eq_true_eq]
    constructor
    · rintro ⟨ha, hc⟩; exact ⟨(h.a x ha).2 hc, hc⟩
    · rintro ⟨hb, hc⟩; exact ⟨(h.b x hb).2 hc, hc⟩
  have hn : s.ncont = (ai.filter (· ∉ ci)).length := by
    show (abLoop bi ai 0 ⟨[], 0, ai.length, bi.length⟩).ncont = _
    rw [h2, hA, Nat.zero_add]
  refine ⟨by show (abLoop bi ai 0 ⟨[], 0, ai.length, bi.length⟩).AtoB = _; rw [h1]; rfl,
    hn, hn.trans hperm.length_eq, ?_, ?_, hperm⟩
  · have e : ai.findIdx (fun x => decide (x ∈ bi)) = ai.findIdx (fun x => decide (findIndex ci x < 0)) := by
      have hh : ∀ l : List Int, (∀ x ∈ l, x ∈ ai) → l.findIdx (fun x => decide (x ∈ bi)) =
          l.findIdx (fun x => decide (findIndex ci x < 0)) := by
        intro l
        induction l with
        | nil => intro _; rfl
        | cons x l ih =>
          intro hl
          have hx : decide (x ∈ bi) = decide (findIndex ci x < 0) := by
            rw [decide_eq_decide, findIndex_neg]; exact h.a x (hl x (by simp))
          rw [List.findIdx_cons, List.findIdx_cons, hx, ih (fun y hy => hl y (by simp [hy]))]
      exact hh ai (fun x hx => hx)
    show (abLoop bi ai 0 ⟨[], 0, ai.length, bi.length⟩).Acstart = _
    rw [h3 (by simp), e]
    have := List.findIdx_le_length (xs := ai) (p := fun x => decide (findIndex ci x < 0))
    dsimp only
    split <;> omega
  · show (abLoop bi ai 0 ⟨[], 0, ai.length, bi.length⟩).Bcstart = _
    generalize (abLoop bi ai 0 ⟨[], 0, ai.length, bi.length⟩).Bcstart = b at h5 h6 h7 ⊢
    dsimp only at h5 h7
    -- lower bound
    have hlow : ∀ (j : Nat) (hj : j < bi.length), findIndex ci bi[j] < 0 → b ≤ j := by
      intro j hj hc
      have hm : bi[j] ∈ ai := (h.b _ (List.getElem_mem hj)).2 (findIndex_neg.1 hc)
      exact h6 _ hm j (findIndex_eq_of_get h.ndb (List.getElem?_eq_getElem hj))
    rcases lt_or_ge (bi.findIdx (fun x => decide (findIndex ci x < 0))) bi.length with hlt | hge
    · have hp := List.findIdx_getElem (w := hlt)
      simp only [decide_eq_true_eq] at hp
      have hle := hlow _ hlt hp
      rcases h7 with h7 | ⟨x, hx, hxb⟩
      · omega
      · have hxm : x ∈ bi := by
          by_contra hn
          rw [findIndex_of_notMem hn] at hxb; omega
        obtain ⟨k, hk, hk', _⟩ := findIndex_of_mem hxm
        have hkb : k = b := by omega
        subst hkb
        obtain ⟨hkl, hke⟩ := List.getElem?_eq_some_iff.1 hk'
        by_contra hne
        have hlt2 : k < bi.findIdx (fun x => decide (findIndex ci x < 0)) := by omega
        have := List.not_of_lt_findIdx hlt2
        rw [hke] at this
        simp only [decide_eq_false_iff_not] at this
        exact this (findIndex_neg.2 ((h.a x hx).1 hxm))
    · have hle := List.findIdx_le_length (xs := bi) (p := fun x => decide (findIndex ci x < 0))
      rcases h7 with h7 | ⟨x, hx, hxb⟩
      · omega
      · have hxm : x ∈ bi := by
          by_contra hn
          rw [findIndex_of_notMem hn] at hxb; omega
        exact absurd (List.findIdx_lt_length_of_exists (p := fun x => decide (findIndex ci x < 0))
          ⟨x, hxm, by simpa using findIndex_neg.2 ((h.a x hx).1 hxm)⟩) (by omega)

theorem perm_unc {ai bi ci : List Int} (h : LabelsOK ai bi ci) :
    (ai.filter (· ∈ ci) ++ bi.filter (· ∈ ci)).Perm ci := by
  rw [List.perm_ext_iff_of_nodup _ h.ndc]
  · intro x
    rw [List.mem_append, List.mem_filter, List.mem_filter]
    simp only [decide_eq_true_eq]
    constructor
    · rintro (hx | hx) <;> exact hx.2
    · intro hc
      by_cases ha : x ∈ ai
      · exact Or.inl ⟨ha, hc⟩
      · exact Or.inr ⟨by by_contra hb; exact ha ((h.c x hc).2 hb), hc⟩
  · rw [List.nodup_append]
    refine ⟨h.nda.filter _, h.ndb.filter _, ?_⟩
    intro a ha b hb hab
    subst hab
    obtain ⟨ha1, ha2⟩ := List.mem_filter.1 ha
    obtain ⟨hb1, _⟩ := List.mem_filter.1 hb
    exact ((h.c a (by simpa using ha2)).1 ha1) hb1

theorem drop_first_filter {α} (l : List α) (q : α → Bool) :
    (l.drop (l.findIdx q)).filter q = l.filter q := by
  conv_rhs => rw [← List.take_append_drop (l.findIdx q) l, List.filter_append]
  have : (l.take (l.findIdx q)).filter q = [] := by
    rw [List.filter_eq_nil_iff]
    intro x hx
    obtain ⟨n, hn, rfl⟩ := List.getElem_of_mem hx
    simp only [List.length_take] at hn
    rw [List.getElem_take]
    have := List.not_of_lt_findIdx (p := q) (xs := l) (i := n) (by omega)
    rw [this]; simp
  rw [this, List.nil_append]

/-- What the decisions guarantee. -/
theorem decideFlags_spec {ai bi ci : List Int} (h : LabelsOK ai bi ci) (ha : ai ≠ []) (hb : bi ≠ [])
    (u v dl dm dr : Nat) :
    ∃ pA pB PC pc ct,
      decideFlags (toC ci ai) (toC ci bi) (abLoop bi ai 0 ⟨[], 0, ai.length, bi.length⟩) u v ci.length
        dl dm dr = .ok ((pA, pB), (PC, pc, ct)) ∧
      List.length PC = ci.length ∧
      (pA = false → (contracted (toC ci ai) 0 = .ok true ∧
          ai = ai.filter (· ∉ ci) ++ ai.filter (· ∈ ci)) ∨
        (contracted (toC ci ai) 0 = .ok false ∧ ai = ai.filter (· ∈ ci) ++ ai.filter (· ∉ ci))) ∧
      (pB = false → (contracted (toC ci bi) 0 = .ok true ∧
          bi = bi.filter (· ∉ ci) ++ bi.filter (· ∈ ci)) ∨
        (contracted (toC ci bi) 0 = .ok false ∧ bi = bi.filter (· ∈ ci) ++ bi.filter (· ∉ ci))) ∧
      (pA = false → pB = false → ai.filter (· ∉ ci) = bi.filter (· ∉ ci) ∧
        PC = vals (toC ci ai) ++ vals (toC ci bi) ∧
        pc = (!isTrivial PC && !(sameord (toC ci bi) v && sameord (toC ci ai) u)) ∧
        ct = (!isTrivial PC && (sameord (toC ci bi) v && sameord (toC ci ai) u))) := by
  obtain ⟨hs1, hs2, hs3, hs4, hs5, hs6⟩ := abLoop_facts h
  generalize abLoop bi ai 0 ⟨[], 0, ai.length, bi.length⟩ = s at hs1 hs2 hs3 hs4 hs5 ⊢
  have hlen : (vals (toC ci ai)).length + (vals (toC ci bi)).length = ci.length := by
    unfold toC
    rw [vals_map, vals_map, filter_unc, filter_unc, List.length_map, List.length_map,
      ← List.length_append, (perm_unc h).length_eq]
  have hPC := calcPC_spec (toC ci ai) (toC ci bi) (ident ci.length) (by rw [hlen]; simp [ident])
  obtain ⟨bA, hbA, hbA'⟩ := needPerm_spec ai (findIndex ci) ha
  obtain ⟨bB, hbB, hbB'⟩ := needPerm_spec bi (findIndex ci) hb
  rw [← hs4] at hbA hbA'
  rw [← hs5] at hbB hbB'
  rw [filter_con] at hbA hbA' hbB hbB'
  rw [filter_unc] at hbA' hbB'
  rw [← hs2] at hbA hbA'
  rw [← hs3] at hbB hbB'
  have hA' : bA = false → s.Acstart + s.ncont ≤ s.AtoB.length ∧
      ((ai.drop s.Acstart).take s.ncont) = ai.filter (· ∉ ci) := by
    intro hf
    have hall := (hbA' hf).1
    have hbefore : (ai.take s.Acstart).filter (· ∉ ci) = [] := by
      rw [List.filter_eq_nil_iff]
      intro x hx
      obtain ⟨n, hn, rfl⟩ := List.getElem_of_mem hx
      simp only [List.length_take] at hn
      rw [List.getElem_take]
      have hn' : n < ai.findIdx (fun x => decide (findIndex ci x < 0)) := by rw [← hs4]; omega
      have := List.not_of_lt_findIdx hn'
      simp only [decide_eq_false_iff_not, findIndex_neg] at this
      simpa using this
    have e1 : (ai.drop s.Acstart).filter (· ∉ ci) = ai.filter (· ∉ ci) := by
      conv_rhs => rw [← List.take_append_drop s.Acstart ai, List.filter_append, hbefore, List.nil_append]
    have hsp := split_front (ai.drop s.Acstart) (fun x => decide (x ∉ ci)) (fun x hx => by
      rw [e1, ← hs2] at hx
      have := hall x hx
      simpa using findIndex_neg.1 this)
    rw [e1] at hsp
    have htake : (ai.drop s.Acstart).take s.ncont = ai.filter (· ∉ ci) := by
      rw [hsp, hs2, List.take_left]
    refine ⟨?_, htake⟩
    have h1 := congrArg List.length htake
    rw [← hs2, List.length_take, List.length_drop] at h1
    rw [hs1, List.length_map]
    have : s.Acstart ≤ ai.length := by rw [hs4]; exact List.findIdx_le_length
    omega
  have hB' : bB = false → ((bi.drop s.Bcstart).take s.ncont) = bi.filter (· ∉ ci) := by
    intro hf
    have hall := (hbB' hf).1
    have hbefore : (bi.take s.Bcstart).filter (· ∉ ci) = [] := by
      rw [List.filter_eq_nil_iff]
      intro x hx
      obtain ⟨n, hn, rfl⟩ := List.getElem_of_mem hx
      simp only [List.length_take] at hn
      rw [List.getElem_take]
      have hn' : n < bi.findIdx (fun x => decide (findIndex ci x < 0)) := by rw [← hs5]; omega
      have := List.not_of_lt_findIdx hn'
      simp only [decide_eq_false_iff_not, findIndex_neg] at this
      simpa using this
    have e1 : (bi.drop s.Bcstart).filter (· ∉ ci) = bi.filter (· ∉ ci) := by
      conv_rhs => rw [← List.take_append_drop s.Bcstart bi, List.filter_append, hbefore, List.nil_append]
    have hsp := split_front (bi.drop s.Bcstart) (fun x => decide (x ∉ ci)) (fun x hx => by
      rw [e1, ← hs3] at hx
      have := hall x hx
      simpa using findIndex_neg.1 this)
    rw [e1] at hsp
    rw [hsp, hs3, List.take_left]
  unfold decideFlags
  rw [hPC, Res.bind_ok]
  dsimp only
  rw [show needPerm (toC ci ai) s.ncont s.Acstart = .ok bA from hbA, Res.bind_ok,
    show needPerm (toC ci bi) s.ncont s.Bcstart = .ok bB from hbB, Res.bind_ok]
  obtain ⟨diff, hdiff, hdiff'⟩ : ∃ diff,
      (if (!bA && !bB) = true then orderLoop s.AtoB s.ncont s.Acstart s.Bcstart else .ok false) =
        .ok diff ∧ (bA = false → bB = false → diff = false →
          ai.filter (· ∉ ci) = bi.filter (· ∉ ci)) := by
    by_cases hboth : bA = false ∧ bB = false
    · obtain ⟨h1, h2⟩ := hA' hboth.1
      have h3 := hB' hboth.2
      obtain ⟨d, hd, hd'⟩ := orderLoop_spec s.AtoB s.ncont s.Acstart s.Bcstart h1
      refine ⟨d, by rw [hboth.1, hboth.2]; exact hd, fun _ _ hdf => ?_⟩
      have h4 := hd' hdf
      rw [← h2, ← h3]
      apply List.ext_getElem?
      intro n
      by_cases hn : n < s.ncont
      · rw [List.getElem?_take_of_lt hn, List.getElem?_take_of_lt hn, List.getElem?_drop,
          List.getElem?_drop]
        have h5 := h4 n hn
        rw [hs1, List.getElem?_map] at h5
        obtain ⟨x, hx, hx'⟩ := Option.map_eq_some_iff.1 h5
        rw [hx]
        have hxb : x ∈ bi := by
          by_contra hn'
          rw [findIndex_of_notMem hn'] at hx'; omega
        obtain ⟨k, hk, hk', _⟩ := findIndex_of_mem hxb
        rw [show s.Bcstart + n = k by omega, hk']
      · rw [List.getElem?_eq_none (by simp; omega), List.getElem?_eq_none (by simp; omega)]
    · refine ⟨false, ?_, fun h1 h2 _ => absurd ⟨h1, h2⟩ hboth⟩
      rw [if_neg]
      simp only [Bool.and_eq_true, Bool.not_eq_true']
      exact hboth
  rw [hdiff, Res.bind_ok]
  have hlen' : List.length (vals (toC ci ai) ++ vals (toC ci bi)) = ci.length := by simp [hlen]
  split
  · exact ⟨true, true, _, _, _, rfl, hlen', by simp, by simp, by simp⟩
  · refine ⟨_, _, _, _, _, rfl, hlen', ?_, ?_, ?_⟩
    · intro hf
      simp only [Bool.or_eq_false_iff] at hf
      exact (hbA' hf.1).2
    · intro hf
      simp only [Bool.or_eq_false_iff] at hf
      exact (hbB' hf.1).2
    · intro hf1 hf2
      simp only [Bool.or_eq_false_iff, Bool.and_eq_false_iff] at hf1 hf2
      refine ⟨hdiff' hf1.1 hf2.1 ?_, rfl, rfl, rfl⟩
      rcases hf1.2 with h | h
      · exact h
      · rcases hf2.2 with h' | h'
        · exact h'
        · rw [h] at h'; simp at h'

/-- `compute` succeeds and leaves a `Layout`. -/
theorem compute_spec {ai bi ci : List Int} (h : LabelsOK ai bi ci) (ha : ai ≠ []) (hb : bi ≠ [])
    (ext : Int → Nat) :
    ∃ p cc uA uB, compute ai bi ci (init (ai.map ext)) (init (bi.map ext)) = .ok p ∧
      Layout p ai bi ci ext cc uA uB := by
  obtain ⟨hs1, hs2, hs3, hs4, hs5, hs6⟩ := abLoop_facts h
  obtain ⟨pA, pB, PC, pc, ct, hfl, hPClen, hpA, hpB, hpAB⟩ := decideFlags_spec h ha hb
    (ustartLoop (toC ci ai) 0 ai.length) (ustartLoop (toC ci bi) 0 bi.length)
    (dimUnc (toC ci ai) (ai.map ext) 1) (dimCon (toC ci ai) (ai.map ext) 1)
    (dimUnc (toC ci bi) (bi.map ext) 1)
  have hua : ustartLoop (toC ci ai) 0 ai.length = (toC ci ai).findIdx (fun k => decide (0 ≤ k)) := by
    have := ustart_eq (toC ci ai); rwa [toC, List.length_map] at this
  have hub : ustartLoop (toC ci bi) 0 bi.length = (toC ci bi).findIdx (fun k => decide (0 ≤ k)) := by
    have := ustart_eq (toC ci bi); rwa [toC, List.length_map] at this
  have hfrontA : frontLoop (toC ci bi) bi ai
      (abLoop bi ai 0 ⟨[], 0, ai.length, bi.length⟩).ncont
      (abLoop bi ai 0 ⟨[], 0, ai.length, bi.length⟩).Bcstart 0 (ident ai.length) =
      calcLoop ai (bi.filter (· ∉ ci)) 0 (ident ai.length) := by
    rw [hs5, hs3, ← filter_con, ← drop_first_filter bi (fun x => decide (findIndex ci x < 0))]
    exact frontLoop_spec bi ai (findIndex ci) _ _ 0 (ident ai.length) rfl
      (fun x hx hxn => (h.b x hx).2 (findIndex_neg.1 hxn))
  have hownB : frontOwn (toC ci bi)
      (abLoop bi ai 0 ⟨[], 0, ai.length, bi.length⟩).ncont
      (abLoop bi ai 0 ⟨[], 0, ai.length, bi.length⟩).Bcstart 0 (ident bi.length) =
      calcLoop bi (bi.filter (· ∉ ci)) 0 (ident bi.length) := by
    rw [hs5, hs3, ← filter_con, ← drop_first_filter bi (fun x => decide (findIndex ci x < 0))]
    exact frontOwn_spec bi h.ndb (findIndex ci) _ _ 0 (ident bi.length) rfl
  have hfrontB : frontLoop (toC ci ai) ai bi
      (abLoop bi ai 0 ⟨[], 0, ai.length, bi.length⟩).ncont
      (abLoop bi ai 0 ⟨[], 0, ai.length, bi.length⟩).Acstart 0 (ident bi.length) =
      calcLoop bi (ai.filter (· ∉ ci)) 0 (ident bi.length) := by
    rw [hs4, hs2, ← filter_con, ← drop_first_filter ai (fun x => decide (findIndex ci x < 0))]
    exact frontLoop_spec ai bi (findIndex ci) _ _ 0 (ident bi.length) rfl
      (fun x hx hxn => (h.a x hx).2 (findIndex_neg.1 hxn))
  -- the contracted labels in matrix order
  obtain ⟨cc, hcc, hccA, hccB, hccB'⟩ : ∃ cc : List Int, cc = (if pA then bi.filter (· ∉ ci) else ai.filter (· ∉ ci)) ∧
      cc.Perm (ai.filter (· ∉ ci)) ∧ cc.Perm (bi.filter (· ∉ ci)) ∧
      (pB = false → cc = bi.filter (· ∉ ci)) := by
    refine ⟨_, rfl, ?_, ?_, ?_⟩
    · split
      · exact hs6.symm
      · exact List.Perm.refl _
    · split
      · exact List.Perm.refl _
      · exact hs6
    · intro hf
      by_cases hA : pA = true
      · rw [if_pos hA]
      · rw [if_neg hA]; exact (hpAB (by simpa using hA) hf).1
  have hn : (abLoop bi ai 0 ⟨[], 0, ai.length, bi.length⟩).ncont = cc.length := by
    rw [hs2, hccA.length_eq]
  rw [hn] at hfrontA hownB hfrontB
  have hsplit : ∀ xi : List Int, (xi.filter (· ∉ ci) ++ xi.filter (· ∈ ci)).Perm xi := by
    intro xi
    have := List.filter_append_perm (fun x => decide (x ∉ ci)) xi
    simpa using this
  have hfilt : ∀ xi : List Int, cc.Perm (xi.filter (· ∉ ci)) →
      (cc ++ ci.filter (· ∈ xi)).filter (· ∈ ci) = ci.filter (· ∈ xi) := by
    intro xi hp
    rw [List.filter_append]
    have e1 : cc.filter (· ∈ ci) = [] := by
      rw [List.filter_eq_nil_iff]
      intro x hx
      have := (List.mem_filter.1 (hp.mem_iff.1 hx)).2
      simpa using this
    have e2 : (ci.filter (· ∈ xi)).filter (· ∈ ci) = ci.filter (· ∈ xi) := by
      rw [List.filter_eq_self]
      intro x hx
      simpa using (List.mem_filter.1 hx).1
    rw [e1, e2, List.nil_append]
  -- A
  obtain ⟨ae, PA, RA, uA, hA1, hA2, hA3, hA4, hA6, hA5⟩ : ∃ (ae : List Int) (PA : Permutation) (RA : Range) (uA : List Int),
      (if pA then
        (frontLoop (toC ci bi) bi ai cc.length
          (abLoop bi ai 0 ⟨[], 0, ai.length, bi.length⟩).Bcstart 0 (ident ai.length)).bind fun PA =>
        (uncLoop ai ci 0 cc.length (List.replicate ai.length (-1)) PA).bind fun q =>
        (permuteExtents (init (ai.map ext)) q.2).map fun R =>
          (q.1, q.2, R, firstPos q.1 (fun k => decide (0 ≤ k)))
        else .ok (toC ci ai, [], [], ustartLoop (toC ci ai) 0 ai.length)) =
        .ok (ae.map (findIndex ci), PA, RA, (ae.map (findIndex ci)).findIdx (fun k => decide (0 ≤ k))) ∧
      (if pA then Range.extents RA else ai.map ext) = ae.map ext ∧
      ae.filter (· ∈ ci) = uA ∧ (cc ++ uA).Perm ai ∧
      (uA = ai.filter (· ∈ ci) ∨ uA = ci.filter (· ∈ ai)) ∧
      ((pA = true ∧ LabelPerm PA ai (cc ++ uA) ∧ RA = init ((cc ++ uA).map ext)) ∨
        (pA = false ∧ ((contracted (ae.map (findIndex ci)) 0 = .ok true ∧ ai = cc ++ uA) ∨
          (contracted (ae.map (findIndex ci)) 0 = .ok false ∧ ai = uA ++ cc)))) := by
    cases hpAv : pA with
    | true =>
      rw [hpAv, if_pos rfl] at hcc
      obtain ⟨P, h1, h2, h3, h4⟩ := permuted_spec ext ai ci cc h.nda h.ndc hccA
      refine ⟨cc ++ ci.filter (· ∈ ai), P, init ((cc ++ ci.filter (· ∈ ai)).map ext),
        ci.filter (· ∈ ai), ?_, by simp, hfilt ai hccA, h4, Or.inr rfl, Or.inl ⟨rfl, h1, rfl⟩⟩
      rw [if_pos rfl, hfrontA, ← hcc]
      obtain ⟨P0, h5, h6⟩ := Res.bind_eq_ok.1 h2
      rw [h5, Res.bind_ok, h6, Res.bind_ok]
      dsimp only
      rw [h3]; rfl
    | false =>
      rw [hpAv] at hcc
      simp only [Bool.false_eq_true, if_false] at hcc
      refine ⟨ai, [], [], ai.filter (· ∈ ci), ?_, by simp, rfl, ?_, Or.inl rfl, Or.inr ⟨rfl, ?_⟩⟩
      · rw [hua]; rfl
      · rw [hcc]; exact hsplit ai
      · rw [hcc]; exact hpA hpAv
  obtain ⟨be, PB, RB, uB, hB1, hB2, hB3, hB4, hB6, hB5⟩ : ∃ (be : List Int) (PB : Permutation) (RB : Range) (uB : List Int),
      (if pB then
        (if pA then frontOwn (toC ci bi) cc.length
            (abLoop bi ai 0 ⟨[], 0, ai.length, bi.length⟩).Bcstart 0 (ident bi.length)
          else frontLoop (toC ci ai) ai bi cc.length
            (abLoop bi ai 0 ⟨[], 0, ai.length, bi.length⟩).Acstart 0 (ident bi.length)).bind fun PB =>
        (uncLoop bi ci 0 cc.length (List.replicate bi.length (-1)) PB).bind fun q =>
        (permuteExtents (init (bi.map ext)) q.2).map fun R =>
          (q.1, q.2, R, firstPos q.1 (fun k => decide (0 ≤ k)))
        else .ok (toC ci bi, [], [], ustartLoop (toC ci bi) 0 bi.length)) =
        .ok (be.map (findIndex ci), PB, RB, (be.map (findIndex ci)).findIdx (fun k => decide (0 ≤ k))) ∧
      (if pB then Range.extents RB else bi.map ext) = be.map ext ∧
      be.filter (· ∈ ci) = uB ∧ (cc ++ uB).Perm bi ∧
      (uB = bi.filter (· ∈ ci) ∨ uB = ci.filter (· ∈ bi)) ∧
      ((pB = true ∧ LabelPerm PB bi (cc ++ uB) ∧ RB = init ((cc ++ uB).map ext)) ∨
        (pB = false ∧ ((contracted (be.map (findIndex ci)) 0 = .ok true ∧ bi = cc ++ uB) ∨
          (contracted (be.map (findIndex ci)) 0 = .ok false ∧ bi = uB ++ cc)))) := by
    cases hpBv : pB with
    | true =>
      obtain ⟨P, h1, h2, h3, h4⟩ := permuted_spec ext bi ci cc h.ndb h.ndc hccB
      refine ⟨cc ++ ci.filter (· ∈ bi), P, init ((cc ++ ci.filter (· ∈ bi)).map ext),
        ci.filter (· ∈ bi), ?_, by simp, hfilt bi hccB, h4, Or.inr rfl, Or.inl ⟨rfl, h1, rfl⟩⟩
      have hfront : (if pA then frontOwn (toC ci bi) cc.length
            (abLoop bi ai 0 ⟨[], 0, ai.length, bi.length⟩).Bcstart 0 (ident bi.length)
          else frontLoop (toC ci ai) ai bi cc.length
            (abLoop bi ai 0 ⟨[], 0, ai.length, bi.length⟩).Acstart 0 (ident bi.length)) =
          calcLoop bi cc 0 (ident bi.length) := by
        rw [hownB, hfrontB]
        cases hpAv : pA with
        | true => rw [hpAv, if_pos rfl] at hcc; rw [if_pos rfl, hcc]
        | false =>
          rw [hpAv] at hcc
          simp only [Bool.false_eq_true, if_false] at hcc
          simp only [Bool.false_eq_true, if_false]
          rw [hcc]
      rw [if_pos rfl, hfront]
      obtain ⟨P0, h5, h6⟩ := Res.bind_eq_ok.1 h2
      rw [h5, Res.bind_ok, h6, Res.bind_ok]
      dsimp only
      rw [h3]; rfl
    | false =>
      have hcb := hccB' hpBv
      refine ⟨bi, [], [], bi.filter (· ∈ ci), ?_, by simp, rfl, ?_, Or.inl rfl, Or.inr ⟨rfl, ?_⟩⟩
      · rw [hub]; rfl
      · rw [hcb]; exact hsplit bi
      · rw [hcb]; exact hpB hpBv
  -- the uncontracted labels
  have hmem : ∀ (xi u : List Int), (cc ++ u).Perm xi → cc.Perm (xi.filter (· ∉ ci)) →
      u.Perm (xi.filter (· ∈ ci)) := by
    intro xi u h1 h2
    have h3 := (h1.trans (hsplit xi).symm).trans (h2.symm.append_right _)
    exact (List.perm_append_left_iff cc).1 h3
  have hpermA := hmem ai uA hA4 hccA
  have hpermB := hmem bi uB hB4 hccB
  have hpermC : (uA ++ uB).Perm ci := (hpermA.append hpermB).trans (perm_unc h)
  have hvA : vals (ae.map (findIndex ci)) = uA.map (fun x => (findIndex ci x).toNat) := by
    rw [vals_map, filter_unc, hA3]
  have hvB : vals (be.map (findIndex ci)) = uB.map (fun x => (findIndex ci x).toNat) := by
    rw [vals_map, filter_unc, hB3]
  obtain ⟨PCf, hPCf⟩ : ∃ PCf : Permutation, PCf = vals (ae.map (findIndex ci)) ++ vals (be.map (findIndex ci)) :=
    ⟨_, rfl⟩
  obtain ⟨hc1, hc2, hc3⟩ := cLayout h.ndc hpermC PCf (by rw [hPCf, hvA, hvB, List.map_append])
  obtain ⟨same, hsame⟩ : ∃ same : Bool, same =
      (sameord (be.map (findIndex ci)) ((be.map (findIndex ci)).findIdx (fun k => decide (0 ≤ k))) &&
        sameord (ae.map (findIndex ci)) ((ae.map (findIndex ci)).findIdx (fun k => decide (0 ≤ k)))) :=
    ⟨_, rfl⟩
  have hC1 : (if pA || pB then
      (calcPC (ae.map (findIndex ci)) (be.map (findIndex ci)) PC).map fun PC =>
        (PC, !isTrivial PC && !same, !isTrivial PC && same)
      else .ok (PC, pc, ct)) = .ok (PCf, !isTrivial PCf && !same, !isTrivial PCf && same) := by
    by_cases hor : (pA || pB) = true
    · rw [if_pos hor, calcPC_spec _ _ _ (by
        rw [hvA, hvB, List.length_map, List.length_map, hPClen, ← hpermC.length_eq, List.length_append]),
        Res.map_ok, hPCf]
    · rw [if_neg hor]
      have hff : pA = false ∧ pB = false := by simpa using hor
      obtain ⟨_, e1, e2, e3⟩ := hpAB hff.1 hff.2
      rw [hff.1] at hA1
      rw [hff.2] at hB1
      simp only [Bool.false_eq_true, if_false, Res.ok.injEq, Prod.mk.injEq] at hA1 hB1
      have eP : PC = PCf := by rw [e1, hPCf, hA1.1, hB1.1]
      rw [eP, hA1.2.2.2, hB1.2.2.2, hA1.1, hB1.1, ← hsame] at e2 e3
      rw [eP, e2, e3]
  refine ⟨{ AtoC := ae.map (findIndex ci), BtoC := be.map (findIndex ci), permuteA := pA, permuteB := pB,
            permuteC := !isTrivial PCf && !same, dleft := dimUnc (toC ci ai) (ai.map ext) 1,
            dmid := dimCon (toC ci ai) (ai.map ext) 1, dright := dimUnc (toC ci bi) (bi.map ext) 1,
            PA := PA, PB := PB, PC := PCf, ctrans := !isTrivial PCf && same, newArange := RA,
            newBrange := RB, newCrange := init ((uA ++ uB).map ext) }, cc, uA, uB, ?_, ?_⟩
  · unfold compute
    dsimp only
    rw [extents_init, extents_init, hfl, Res.bind_ok]
    dsimp only
    rw [hn, hA1, Res.bind_ok, hB1, Res.bind_ok]
    dsimp only
    rw [← hsame, hC1, Res.map_ok, hA2, hB2, uncExtents_spec, uncExtents_spec, filter_unc, filter_unc, hA3,
      hB3, List.map_append]
  · refine ⟨hA5, hB5, ?_, ?_, ?_, ?_, hA4, hB4, hpermC, hA6, hB6⟩
    · dsimp only
      cases ht : isTrivial PCf with
      | true => right; exact ⟨by simp, Or.inr ⟨by simp, hc2 ht⟩⟩
      | false =>
        cases hs : same with
        | false =>
          left
          refine ⟨by simp, hc1, rfl, fun he => ?_⟩
          have : isTrivial PCf = true := by
            rw [C16_isTrivial]
            intro n hn'
            have hlt : n < (uA ++ uB).length := by rw [← hc1.2.1]; exact hn'
            have hg := hc1.2.2.2 n PCf[n] (List.getElem?_eq_getElem hn')
            have h1 := findIndex_eq_of_get h.ndc (k := n) (x := (uA ++ uB)[n]) (by
              rw [he, List.getElem?_eq_getElem hlt])
            have h2 := findIndex_eq_of_get h.ndc (k := PCf[n]) (x := (uA ++ uB)[n]) (by
              rw [hg, List.getElem?_eq_getElem hlt])
            omega
          rw [this] at ht; exact absurd ht (by simp)
        | true =>
          right
          refine ⟨by simp, Or.inl ⟨by simp, ?_⟩⟩
          rw [hs] at hsame
          have hs' := hsame.symm
          rw [Bool.and_eq_true] at hs'
          obtain ⟨c1, hc1'⟩ := sameord_spec _ hs'.1
          obtain ⟨c2, hc2'⟩ := sameord_spec _ hs'.2
          refine hc3 ht ⟨c2, ?_⟩ ⟨c1, ?_⟩
          · rw [← hvA, hc2', hvA, List.length_map]
          · rw [← hvB, hc1', hvB, List.length_map]
    · show dimUnc (ai.map (findIndex ci)) (ai.map ext) 1 = _
      rw [dimUnc_spec, filter_unc, Nat.one_mul, (hpermA.map ext).prod_eq]
    · show dimCon (ai.map (findIndex ci)) (ai.map ext) 1 = _
      rw [dimCon_spec, filter_con, Nat.one_mul, (hccA.map ext).prod_eq]
    · show dimUnc (bi.map (findIndex ci)) (bi.map ext) 1 = _
      rw [dimUnc_spec, filter_unc, Nat.one_mul, (hpermB.map ext).prod_eq]

end CProps

end Verif.Tensor
