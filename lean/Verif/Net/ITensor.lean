import Verif.Net.Named
import Verif.Index.LabelFn
import Mathlib.Data.Set.Function

/-!
# Products of ITensors with dense storage

Sources: `/repo/itensor/itensor.cc` (`operator*=`), `/repo/itensor/itdata/dense.cc` (`Contract`,
`Mult`, `GetElt`).

Elements are from any commutative ring; the difference between real and complex storage is not
modelled (`Verif/Tensor/Contract.lean` says how the mixed case is treated). Default-constructed
ITensors, for which `operator*=` reports an error (itensor.cc:940), are not represented.
-/

namespace Verif.Net

open Verif.Tensor Verif.Tensor.Range Verif.Index Verif.Index.IndexSet Finset

variable {K : Type*} [CommRing K] [DecidableEq K]

/-- An `ITensor` (itensor.h:32-80) with `Dense` storage (dense.h:30-70): the indices `is_` and the memory
`store_`, element at offset 0 first; what lies outside the storage is not looked at. -/
structure DTensor (K : Type*) where
  is : IndexSet
  store : Int → K

/-- `operator*=(Cplx)`/`operator*=(Real)` (itensor.cc:1014-1019, 1031-1037) with `doTask(Mult)`
(dense.cc:112-136). -/
def DTensor.scale (T : DTensor K) (z : K) : DTensor K := ⟨T.is, fun a => T.store a * z⟩

/-- `doTask(Contract&,Dense,Dense)` (dense.cc:262-320): `fresh` is the undefined contents of the new storage,
`junk` that of temporary memory. -/
def DTensor.contractDense (fuel : Nat) (junk fresh : Int → K) (L R : DTensor K) : Run (DTensor K) :=
  let c := computeLabels L.is R.is
  let N := contractIS L.is R.is c.1 c.2.1
  Run.bind (contract fuel (init (L.is.map (·.dim))) c.1 (init (R.is.map (·.dim))) c.2.1
      (init ((N.map (·.1)).map (·.dim))) (N.map (·.2)) L.store R.store fresh junk 1 0)
    fun m => some (.ok ⟨N.map (·.1), m⟩)

/-- `ITensor::operator*=(ITensor)` (itensor.cc:935-978) for operands without quantum numbers: the calls of
`checkArrows` and `removeQNs` do nothing then. -/
def DTensor.mulEq (fuel : Nat) (junk fresh : Int → K) (L R : DTensor K) : Run (DTensor K) :=
  if L.is.length = 0 then some (.ok (R.scale (L.store 0)))
  else if R.is.length = 0 then some (.ok (L.scale (R.store 0)))
  else L.contractDense fuel junk fresh R

/-- What an ITensor means: its indices by identity, and its element for given index values (from 0). -/
def DTensor.sem (T : DTensor K) : Ten Key K :=
  ⟨keys T.is, fun σ => T.store (rank (T.is.map (·.dim)) (T.is.map fun i => σ i.key) : Nat)⟩

/-- An ITensor as the library builds it: indices are distinct and non-empty, none has quantum numbers, and their
dimensions are as recorded in `ext`. -/
structure DTensor.OK (ext : Key → Nat) (T : DTensor K) : Prop where
  nodup : (keys T.is).Nodup
  dims : ∀ i ∈ T.is, i.dim = ext i.key
  pos : ∀ i ∈ T.is, 0 < i.dim
  noqn : ∀ i ∈ T.is, i.qns = []

theorem DTensor.sem_ok {ext : Key → Nat} {T : DTensor K} (h : T.OK ext) : T.sem.OK := by
  refine ⟨h.nodup, fun σ τ hst => ?_⟩
  simp only [sem]
  congr 3
  apply List.map_congr_left
  intro i hi
  exact hst _ (List.mem_map_of_mem hi)

/-- Two descriptions of the same tensor: same indices in the same order, and the same elements for all values of the
indices within their dimensions. -/
def Same {X K : Type*} (ext : X → Nat) (S T : Ten X K) : Prop :=
  S.inds = T.inds ∧ ∀ σ, (∀ k ∈ S.inds, σ k < ext k) → S.val σ = T.val σ

omit [DecidableEq K] in
theorem sumOver_map {X Y : Type*} [DecidableEq X] [DecidableEq Y] {e : X → Nat} {ext : Y → Nat} {lab : Y → X} {S : Y → Prop}
    (hinj : ∀ k k', S k → S k' → lab k = lab k' → k = k') (he : ∀ k, S k → e (lab k) = ext k)
    {F : (X → Nat) → K} {G : (Y → Nat) → K} (hFG : ∀ σ' σ, (∀ k, S k → σ' (lab k) = σ k) → F σ' = G σ) :
    ∀ (cs : List Y) (ρ' : X → Nat) (ρ : Y → Nat), (∀ k ∈ cs, S k) → (∀ k, S k → ρ' (lab k) = ρ k) →
      sumOver e (cs.map lab) F ρ' = sumOver ext cs G ρ := by
  intro cs
  induction cs with
  | nil => intro ρ' ρ _ h; exact hFG ρ' ρ h
  | cons c cs ih =>
    intro ρ' ρ hS h
    simp only [List.map_cons, sumOver, he c (hS c (by simp))]
    refine sum_congr rfl fun v _ => ih _ _ (fun k hk => hS k (by simp [hk])) fun k hk => ?_
    by_cases hkc : k = c
    · subst hkc; simp
    · rw [Function.update_of_ne hkc, Function.update_of_ne fun e => hkc (hinj k c hk (hS c (by simp)) e), h k hk]

omit [DecidableEq K] in
theorem hasQNs_false {T : IndexSet} (h : ∀ i ∈ T, i.qns = []) : hasQNs T = false := by
  simp only [hasQNs, List.any_eq_false]
  intro i hi
  simp [Index.hasQNs, Index.nblock, h i hi]

theorem rank_nil (a : List Nat) : rank [] a = 0 := by simp [rank]

/-- **C60.** `L *= R` for dense ITensors without quantum numbers: the result has the indices of `L` that `R` does
not have followed by those of `R` that `L` does not have, and its elements are the sums over all values of
the common indices. This holds for any number of common indices and any operand orders, with no memory error. -/
theorem C60_product {ext : Key → Nat} {L R : DTensor K} (hL : L.OK ext) (hR : R.OK ext)
    (hml : (((L.is.map (·.dim)).prod : Nat) : Int) ≤ offMax) (hmr : (((R.is.map (·.dim)).prod : Nat) : Int) ≤ offMax)
    (hmn : (((mul ext L.sem R.sem).inds.map ext).prod : Int) ≤ offMax) (fuel : Nat)
    (hfl : (L.is.map (·.dim)).prod < fuel) (hfr : (R.is.map (·.dim)).prod < fuel)
    (hfn : ((mul ext L.sem R.sem).inds.map ext).prod < fuel) (junk fresh : Int → K) :
    ∃ N, L.mulEq fuel junk fresh R = some (.ok N) ∧ N.OK ext ∧ Same ext N.sem (mul ext L.sem R.sem) ∧
      N.is = L.is.filter (fun i => i.key ∉ keys R.is) ++ R.is.filter (fun i => i.key ∉ keys L.is) := by
  unfold DTensor.mulEq
  by_cases hl0 : L.is.length = 0
  · rw [if_pos hl0]
    have hl : L.is = [] := List.eq_nil_of_length_eq_zero hl0
    refine ⟨_, rfl, ⟨hR.nodup, hR.dims, hR.pos, hR.noqn⟩, ⟨?_, fun σ _ => ?_⟩, ?_⟩
    · simp [mul, DTensor.sem, DTensor.scale, hl, keys]
    · simp [mul, DTensor.sem, DTensor.scale, hl, keys, sumOver, rank, mul_comm]
    · simp [DTensor.scale, hl, keys]
  rw [if_neg hl0]
  by_cases hr0 : R.is.length = 0
  · rw [if_pos hr0]
    have hr : R.is = [] := List.eq_nil_of_length_eq_zero hr0
    refine ⟨_, rfl, ⟨hL.nodup, hL.dims, hL.pos, hL.noqn⟩, ⟨?_, fun σ _ => ?_⟩, ?_⟩
    · simp [mul, DTensor.sem, DTensor.scale, hr, keys]
    · simp [mul, DTensor.sem, DTensor.scale, hr, keys, sumOver, rank]
    · simp [DTensor.scale, hr, keys]
  rw [if_neg hr0]
  obtain ⟨lab, hA, hB, hinj, hs⟩ := exists_lab L.is R.is hL.nodup hR.nodup
  obtain ⟨hok, _, hcc⟩ := labelsOK_prod hL.nodup hR.nodup hinj
  have hq : hasQNs L.is = hasQNs R.is := by rw [hasQNs_false hL.noqn, hasQNs_false hR.noqn]
  have hprod := prodInds_lab hq hA hB hs
  set Nis := L.is.filter (fun i => i.key ∉ keys R.is) ++ R.is.filter (fun i => i.key ∉ keys L.is) with hN
  have hNmem : ∀ i ∈ Nis, i ∈ L.is ∨ i ∈ R.is := by
    intro i hi
    rcases List.mem_append.1 hi with h | h
    · exact Or.inl (List.mem_filter.1 h).1
    · exact Or.inr (List.mem_filter.1 h).1
  have hkN : keys Nis = (mul ext L.sem R.sem).inds := by
    simp only [hN, mul, DTensor.sem, keys, List.map_append, List.filter_map]
    congr 2 <;> exact List.filter_congr fun i _ => by simp
  have hdim : ∀ i, i ∈ L.is ∨ i ∈ R.is → i.dim = ext i.key := by
    rintro i (h | h)
    · exact hL.dims i h
    · exact hR.dims i h
  have hkm : ∀ i, i ∈ L.is ∨ i ∈ R.is → i.key ∈ keys L.is ∨ i.key ∈ keys R.is := by
    rintro i (h | h)
    · exact Or.inl (List.mem_map_of_mem h)
    · exact Or.inr (List.mem_map_of_mem h)
  obtain ⟨g, hg⟩ : ∃ g : Int → Key, ∀ k, (k ∈ keys L.is ∨ k ∈ keys R.is) → g (lab k) = k := by
    have hne : Nonempty Key := ⟨(0, 0, 0, [])⟩
    refine ⟨Function.invFunOn lab {k | k ∈ keys L.is ∨ k ∈ keys R.is}, fun k hk => ?_⟩
    have hi : Set.InjOn lab {k | k ∈ keys L.is ∨ k ∈ keys R.is} := fun k hk k' hk' e => hinj k k' hk hk' e
    exact hi.leftInvOn_invFunOn hk
  have mapdim : ∀ X : IndexSet, (∀ i ∈ X, i ∈ L.is ∨ i ∈ R.is) →
      X.map (·.dim) = (X.map fun i => lab i.key).map (ext ∘ g) := by
    intro X hX
    rw [List.map_map]
    apply List.map_congr_left
    intro i hi
    simp only [Function.comp]
    rw [hg _ (hkm i (hX i hi)), hdim i (hX i hi)]
  have kl : ∀ X : IndexSet, (keys X).map lab = X.map fun i => lab i.key := by
    intro X; simp [keys]
  have prodN : (Nis.map (·.dim)).prod = ((mul ext L.sem R.sem).inds.map ext).prod := by
    rw [← hkN, keys, List.map_map]
    congr 1
    apply List.map_congr_left
    intro i hi
    exact hdim i (hNmem i hi)
  have dL := mapdim L.is fun i hi => Or.inl hi
  have dR := mapdim R.is fun i hi => Or.inr hi
  have dN := mapdim Nis hNmem
  have hpos : ∀ x, x ∈ (keys L.is).map lab ∨ x ∈ (keys R.is).map lab → 0 < (ext ∘ g) x := by
    rintro x (hx | hx)
    · rw [kl] at hx
      obtain ⟨i, hi, rfl⟩ := List.mem_map.1 hx
      simp only [Function.comp]
      rw [hg _ (hkm i (Or.inl hi)), ← hL.dims i hi]
      exact hL.pos i hi
    · rw [kl] at hx
      obtain ⟨i, hi, rfl⟩ := List.mem_map.1 hx
      simp only [Function.comp]
      rw [hg _ (hkm i (Or.inr hi)), ← hR.dims i hi]
      exact hR.pos i hi
  obtain ⟨m, hm, hval, _⟩ := C18_contract hok (ext ∘ g) hpos
    (by rw [kl, ← dL]; exact hml) (by rw [kl, ← dR]; exact hmr) (by rw [← dN, prodN]; exact hmn) fuel
    (by rw [kl, ← dL]; exact hfl) (by rw [kl, ← dR]; exact hfr) (by rw [← dN, prodN]; exact hfn)
    L.store R.store fresh junk 1
  have hN1 : (prodInds L.is R.is).map (·.1) = Nis := by
    rw [hprod, List.map_map]; exact List.map_id _
  have hN2 : (prodInds L.is R.is).map (·.2) = Nis.map fun i => lab i.key := by
    rw [hprod, List.map_map]; rfl
  refine ⟨⟨Nis, m⟩, ?_, ⟨?_, ?_, ?_, ?_⟩, ⟨hkN, ?_⟩, rfl⟩
  · unfold DTensor.contractDense
    change Run.bind (contract fuel _ _ _ _ (init (((prodInds L.is R.is).map (·.1)).map (·.dim)))
      ((prodInds L.is R.is).map (·.2)) _ _ _ _ _ _) _ = _
    rw [hN1, hN2, hA, hB, dL, dR, dN]
    have e1 : L.is.map (fun i => lab i.key) = (keys L.is).map lab := (kl _).symm
    have e2 : R.is.map (fun i => lab i.key) = (keys R.is).map lab := (kl _).symm
    rw [e1, e2, hm]
    have hN1' : (contractIS L.is R.is ((keys L.is).map lab) ((keys R.is).map lab)).map (·.1) = Nis := by
      rw [← hN1, prodInds, hA, hB]
    simp only [Run.bind, hN1']
  · rw [hkN]; exact (mul_ok ext (DTensor.sem_ok hL) (DTensor.sem_ok hR)).nodup
  · exact fun i hi => hdim i (hNmem i hi)
  · intro i hi
    rcases hNmem i hi with h | h
    · exact hL.pos i h
    · exact hR.pos i h
  · intro i hi
    rcases hNmem i hi with h | h
    · exact hL.noqn i h
    · exact hR.noqn i h
  · intro σ hσ
    have hσN : ∀ i ∈ Nis, σ i.key < ext i.key := fun i hi => hσ _ (List.mem_map_of_mem hi)
    -- values outside the result's indices do not matter
    let τ : Key → Nat := fun k => if k ∈ keys Nis then σ k else 0
    have hτ : ∀ x, x ∈ (keys L.is).map lab ∨ x ∈ (keys R.is).map lab → (τ ∘ g) x < (ext ∘ g) x := by
      intro x hx
      have hp := hpos x hx
      simp only [Function.comp] at hp ⊢
      by_cases h : g x ∈ keys Nis
      · simp only [τ, if_pos h]; exact hσ _ h
      · simp only [τ, if_neg h]; exact hp
    have h1 := hval (τ ∘ g) hτ
    rw [← dN, one_mul, hcc] at h1
    have h2 : (Nis.map fun i => lab i.key).map (τ ∘ g) = Nis.map fun i => σ i.key := by
      rw [List.map_map]
      apply List.map_congr_left
      intro i hi
      have hk : i.key ∈ keys Nis := List.mem_map_of_mem hi
      simp only [Function.comp]
      rw [hg _ (hkm i (hNmem i hi))]
      simp only [τ, if_pos hk]
    rw [h2] at h1
    simp only [DTensor.sem]
    rw [h1]
    have h3 := sumOver_map (K := K) (e := ext ∘ g) (ext := ext) (lab := lab)
      (S := fun k => k ∈ keys L.is ∨ k ∈ keys R.is) hinj
      (fun k hk => by simp only [Function.comp]; rw [hg k hk])
      (F := fun σ' => L.store (rank (((keys L.is).map lab).map (ext ∘ g)) (((keys L.is).map lab).map σ') : Nat) *
        R.store (rank (((keys R.is).map lab).map (ext ∘ g)) (((keys R.is).map lab).map σ') : Nat))
      (G := fun σ => L.sem.val σ * R.sem.val σ)
      (by
        intro σ' σ h
        simp only [DTensor.sem, kl, ← dL, ← dR]
        congr 4
        · rw [List.map_map]
          apply List.map_congr_left
          intro i hi
          exact h _ (hkm i (Or.inl hi))
        · rw [List.map_map]
          apply List.map_congr_left
          intro i hi
          exact h _ (hkm i (Or.inr hi)))
      ((keys L.is).filter (· ∈ keys R.is)) (τ ∘ g) τ
      (by
        intro k hk
        exact Or.inl (List.mem_filter.1 hk).1)
      (fun k hk => by simp only [Function.comp]; rw [hg k hk])
    rw [h3]
    have hd := (mul_ok ext (DTensor.sem_ok hL) (DTensor.sem_ok hR)).dep
    have h4 : (mul ext L.sem R.sem).val τ = (mul ext L.sem R.sem).val σ := hd τ σ fun k hk => by
      rw [← hkN] at hk
      simp only [τ, if_pos hk]
    refine Eq.trans ?_ h4
    simp only [mul]
    congr 1
    exact List.filter_congr fun i _ => decide_eq_decide.2 Iff.rfl

/-! ## Networks of dense ITensors -/

omit [DecidableEq K] in
theorem sumOver_congr_bd {X : Type*} [DecidableEq X] (ext : X → Nat) {F G : (X → Nat) → K} :
    ∀ (cs : List X) (ρ : X → Nat), (∀ σ, (∀ x, x ∉ cs → σ x = ρ x) → (∀ x ∈ cs, σ x < ext x) → F σ = G σ) →
      sumOver ext cs F ρ = sumOver ext cs G ρ := by
  intro cs
  induction cs with
  | nil => intro ρ h; exact h ρ (fun _ _ => rfl) (by simp)
  | cons x cs ih =>
    intro ρ h
    simp only [sumOver]
    refine sum_congr rfl fun v hv => ih _ fun σ hσ hb => h σ (fun y hy => ?_) fun y hy => ?_
    · simp only [List.mem_cons, not_or] at hy
      rw [hσ y hy.2, Function.update_of_ne hy.1]
    · by_cases hyc : y ∈ cs
      · exact hb y hyc
      · rcases List.mem_cons.1 hy with rfl | h
        · rw [hσ y hyc]; simpa using hv
        · exact absurd h hyc

omit [DecidableEq K] in
theorem Same.mul {X : Type*} [DecidableEq X] {ext : X → Nat} {A A' B B' : Ten X K} (hA : Same ext A A') (hB : Same ext B B') :
    Same ext (Net.mul ext A B) (Net.mul ext A' B') := by
  obtain ⟨ia, va⟩ := A
  obtain ⟨ia', va'⟩ := A'
  obtain ⟨ib, vb⟩ := B
  obtain ⟨ib', vb'⟩ := B'
  obtain ⟨iA, vA⟩ := hA
  obtain ⟨iB, vB⟩ := hB
  cases iA
  cases iB
  refine ⟨rfl, fun σ hσ => ?_⟩
  refine sumOver_congr_bd ext _ σ ?_
  intro τ h1 h2
  have hb : ∀ k, (k ∈ ia ∨ k ∈ ib) → τ k < ext k := by
    intro k hk
    by_cases hc : k ∈ ia.filter (· ∈ ib)
    · exact h2 k hc
    · rw [h1 k hc]
      apply hσ
      rw [mul_mem]
      simp only [List.mem_filter, decide_eq_true_eq] at hc
      tauto
  exact congrArg₂ (· * ·) (vA τ fun k hk => hb k (Or.inl hk)) (vB τ fun k hk => hb k (Or.inr hk))

/-- Products in the given order, as nested calls of `operator*`. -/
def PTree.evalD (fuel : Nat) (junk fresh : Int → K) : PTree (DTensor K) → Run (DTensor K)
  | .leaf T => some (.ok T)
  | .node l r => Run.bind (l.evalD fuel junk fresh) fun A => Run.bind (r.evalD fuel junk fresh) fun B =>
      A.mulEq fuel junk fresh B

def PTree.map {S T : Type*} (f : S → T) : PTree S → PTree T
  | .leaf t => .leaf (f t)
  | .node l r => .node (l.map f) (r.map f)

theorem PTree.leaves_map {S T : Type*} (f : S → T) : ∀ t : PTree S, (t.map f).leaves = t.leaves.map f
  | .leaf _ => rfl
  | .node l r => by simp [PTree.map, PTree.leaves, leaves_map f l, leaves_map f r]

/-- Every intermediate tensor fits: its number of elements is representable and below the number of steps
allowed. -/
def SizesOK (ext : Key → Nat) (fuel : Nat) : PTree (Ten Key K) → Prop
  | .leaf T => ((T.inds.map ext).prod : Int) ≤ offMax ∧ (T.inds.map ext).prod < fuel
  | .node l r => SizesOK ext fuel l ∧ SizesOK ext fuel r ∧
      (((mul ext (l.eval ext) (r.eval ext)).inds.map ext).prod : Int) ≤ offMax ∧
      ((mul ext (l.eval ext) (r.eval ext)).inds.map ext).prod < fuel

omit [DecidableEq K] in
theorem SizesOK.top {ext : Key → Nat} {fuel : Nat} : ∀ {t : PTree (Ten Key K)}, SizesOK ext fuel t →
    (((t.eval ext).inds.map ext).prod : Int) ≤ offMax ∧ ((t.eval ext).inds.map ext).prod < fuel
  | .leaf _, h => h
  | .node _ _, h => h.2.2

omit [CommRing K] [DecidableEq K] in
theorem DTensor.OK.prod_dims {ext : Key → Nat} {T : DTensor K} (h : T.OK ext) :
    (T.is.map (·.dim)).prod = (T.sem.inds.map ext).prod := by
  simp only [DTensor.sem, keys, List.map_map]
  congr 1
  exact List.map_congr_left fun i hi => h.dims i hi

/-- **C60, networks.** Any sequence of products of dense ITensors runs without error and gives the tensor of
the sums (`PTree.eval`). -/
theorem C60_network {ext : Key → Nat} {fuel : Nat} (junk fresh : Int → K) : ∀ t : PTree (DTensor K),
    (∀ T ∈ t.leaves, T.OK ext) → SizesOK ext fuel (t.map DTensor.sem) →
    ∃ N, t.evalD fuel junk fresh = some (.ok N) ∧ N.OK ext ∧ Same ext N.sem ((t.map DTensor.sem).eval ext) := by
  intro t
  induction t with
  | leaf T =>
    intro h _
    exact ⟨T, rfl, h T (by simp [PTree.leaves]), rfl, fun _ _ => rfl⟩
  | node l r ihl ihr =>
    intro h hs
    simp only [PTree.map, SizesOK] at hs
    obtain ⟨A, eA, okA, sA⟩ := ihl (fun T hT => h T (by simp [PTree.leaves, hT])) hs.1
    obtain ⟨B, eB, okB, sB⟩ := ihr (fun T hT => h T (by simp [PTree.leaves, hT])) hs.2.1
    have tA := hs.1.top
    have tB := hs.2.1.top
    have sM := sA.mul sB
    obtain ⟨N, eN, okN, sN, _⟩ := C60_product okA okB (by rw [okA.prod_dims, sA.1]; exact tA.1)
      (by rw [okB.prod_dims, sB.1]; exact tB.1) (by rw [sM.1]; exact hs.2.2.1) fuel
      (by rw [okA.prod_dims, sA.1]; exact tA.2) (by rw [okB.prod_dims, sB.1]; exact tB.2)
      (by rw [sM.1]; exact hs.2.2.2) junk fresh
    refine ⟨N, ?_, okN, sN.1.trans sM.1, fun σ hσ => ?_⟩
    · simp only [PTree.evalD, eA, eB, Run.bind, eN]
    · exact (sN.2 σ hσ).trans (sM.2 σ (sN.1 ▸ hσ))

/-- **C61 for ITensors.** Dense ITensors such that every index occurs on at most two of them: in whatever order
they are multiplied together, the result has the indices that occur on one of them and its
elements are the sums over all values of the indices that occur on two. -/
theorem C61_itensors {ext : Key → Nat} {fuel : Nat} (junk fresh : Int → K) (t : PTree (DTensor K))
    (hok : ∀ T ∈ t.leaves, T.OK ext) (hs : SizesOK ext fuel (t.map DTensor.sem))
    (hocc : ∀ k, occ k (t.leaves.map DTensor.sem) ≤ 2) :
    ∃ N, t.evalD fuel junk fresh = some (.ok N) ∧ N.OK ext ∧
      (∀ k, k ∈ keys N.is ↔ occ k (t.leaves.map DTensor.sem) = 1) ∧
      ∀ D : List Key, D.Nodup → (∀ k, k ∈ D ↔ occ k (t.leaves.map DTensor.sem) = 2) →
        ∀ σ : Key → Nat, (∀ k ∈ keys N.is, σ k < ext k) →
          N.store (rank (N.is.map (·.dim)) (N.is.map fun i => σ i.key) : Nat) =
            sumOver ext D (fun τ => (t.leaves.map fun T =>
              T.store (rank (T.is.map (·.dim)) (T.is.map fun i => τ i.key) : Nat)).prod) σ := by
  obtain ⟨N, e, ok, h1, h2⟩ := C60_network junk fresh t hok hs
  have hl := PTree.leaves_map (DTensor.sem (K := K)) t
  obtain ⟨_, n2, n3⟩ := C61_network ext (t.map DTensor.sem)
    (by
      intro T hT
      rw [hl] at hT
      obtain ⟨T', hT', rfl⟩ := List.mem_map.1 hT
      exact DTensor.sem_ok (hok T' hT')) (by rw [hl]; exact hocc)
  rw [hl] at n2 n3
  refine ⟨N, e, ok, fun k => ?_, fun D hD hm σ hσ => ?_⟩
  · rw [← n2 k, ← h1]; rfl
  · refine (h2 σ hσ).trans ((n3 D hD hm σ).trans ?_)
    congr 1
    funext τ
    simp only [prodVal, List.map_map]
    rfl

end Verif.Net
