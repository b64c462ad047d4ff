import Verif.Net.DirectSum

/-! # C98: direct sums of ITensors -/

namespace Verif.Net

open Verif.Tensor Verif.Tensor.Range Verif.Index Verif.Index.IndexSet Finset

variable {K : Type*} [CommRing K] [DecidableEq K]

/-! ## What a direct sum is -/

/-- The values of the indices of the first tensor: `i` has the value of `ij`. -/
def pullA : IndexSet → IndexSet → (Key → Nat) → Key → Nat
  | i :: I, ij :: IJ, σ => fun k => if k = i.key then σ ij.key else pullA I IJ σ k
  | _, _, σ => σ

/-- The values of the indices of the second tensor: `j` has the value of `ij` less the dimension of `i`. -/
def pullB : IndexSet → IndexSet → IndexSet → (Key → Nat) → Key → Nat
  | i :: I, j :: J, ij :: IJ, σ => fun k => if k = j.key then σ ij.key - i.dim else pullB I J IJ σ k
  | _, _, _, σ => σ

/-- All summed indices have values of the first summand. -/
def InA (I IJ : IndexSet) (σ : Key → Nat) : Prop := ∀ p ∈ I.zip IJ, σ p.2.key < p.1.dim

/-- All summed indices have values of the second summand. -/
def InB (I IJ : IndexSet) (σ : Key → Nat) : Prop := ∀ p ∈ I.zip IJ, p.1.dim ≤ σ p.2.key

instance (I IJ : IndexSet) (σ : Key → Nat) : Decidable (InA I IJ σ) := inferInstanceAs (Decidable (∀ p ∈ I.zip IJ, _))
instance (I IJ : IndexSet) (σ : Key → Nat) : Decidable (InB I IJ σ) := inferInstanceAs (Decidable (∀ p ∈ I.zip IJ, _))

/-- The new indices. -/
def sumInds (tags : Verif.TagSet.TagSet) : List Nat → IndexSet → IndexSet → IndexSet
  | id :: ids, i :: I, j :: J => sumIndex id tags i j :: sumInds tags ids I J
  | _, _, _ => []

/-! ## One index -/

theorem sumIndex_dim {id : Nat} {tags : Verif.TagSet.TagSet} {i j : Index} (h : 0 < i.dim) : (sumIndex id tags i j).dim = i.dim + j.dim := by
  simp only [sumIndex]
  rw [if_neg (by omega)]

omit [DecidableEq K] in
theorem delta_ok {ext : Key → Nat} {i ij : Index} (hi : i.dim = ext i.key) (hij : ij.dim = ext ij.key) (h0 : 0 < i.dim) (hle : i.dim ≤ ij.dim) (hq : i.qns = []) (hq' : ij.qns = [])
    (hne : i.key ≠ ij.key) : (deltaIT i ij : IT K).OK ext := by
  refine ⟨⟨by simp [keys, hne], ?_, ?_, ?_⟩, ?_, .inr ⟨i, by simp, (min_eq_left hle).symm⟩, .inl rfl⟩
  all_goals simp only [List.mem_cons, List.not_mem_nil, or_false, forall_eq_or_imp, forall_eq]
  · exact ⟨hi, hij⟩
  · exact ⟨h0, by omega⟩
  · exact ⟨hq, hq'⟩
  · exact ⟨min_le_left _ _, min_le_right _ _⟩

omit [DecidableEq K] in
theorem mul_delta {ext : Key → Nat} {T : Ten Key K} (hT : T.OK) {i ij : Index} (hi : i.dim = ext i.key) (hij : ij.dim = ext ij.key) (h0 : 0 < i.dim) (hle : i.dim ≤ ij.dim) (hq : i.qns = [])
    (hq' : ij.qns = []) (hiT : i.key ∈ T.inds) (hijT : ij.key ∉ T.inds) (σ : Key → Nat) :
    (mul ext T (deltaIT i ij : IT K).sem).val σ = if σ ij.key < i.dim then T.val (Function.update σ i.key (σ ij.key)) else 0 := by
  have hne : i.key ≠ ij.key := fun e => hijT (e ▸ hiT)
  have hd : (⟨[i, ij], [], 1, min i.dim ij.dim⟩ : DG K).OK ext := delta_ok hi hij h0 hle hq hq' hne
  change (mul ext T (⟨[i, ij], [], 1, min i.dim ij.dim⟩ : DG K).sem).val σ = _
  rw [mul_diag_right hd hT, prodVal']
  have e : ∀ J, (∀ k ∈ keys [i, ij], k ∉ T.inds → σ k = J) ↔ σ ij.key = J := by
    intro J
    simp only [keys, List.map_cons, List.map_nil, List.mem_cons, List.not_mem_nil, or_false, forall_eq_or_imp, forall_eq]
    exact ⟨fun h => h.2 hijT, fun h => ⟨fun h' => absurd hiT h', fun _ => h⟩⟩
  simp only [e, Finset.sum_ite_eq, Finset.mem_range, min_eq_left hle, DG.at', List.isEmpty_nil, if_true, one_mul]
  split_ifs with h
  · refine hT.dep _ _ fun k hk => ?_
    have hk' : k ≠ ij.key := fun e => hijT (e ▸ hk)
    simp only [keys, List.map_cons, List.map_nil, List.mem_cons, List.not_mem_nil, or_false, hk', Function.update_apply]
  · rfl

/-- The elements of the matrix `S`. -/
theorem shift_mem (K : Type*) [CommRing K] (di n : Nat) : ∀ (m : Nat), m ≤ n → ∀ x y : Nat, x < n →
    ((List.range m).foldl (fun (m : Int → K) (jj : Nat) => Function.update m ((jj + (di + jj) * n : Nat) : Int) 1) (fun _ => 0)) ((x + y * n : Nat) : Int) =
      if x < m ∧ y = di + x then 1 else 0 := by
  intro m
  induction m with
  | zero => intro _ x y _; simp
  | succ m ih =>
    intro hm x y hx
    rw [List.range_succ, List.foldl_append, List.foldl_cons, List.foldl_nil, Function.update_apply, ih (by omega) x y hx]
    have e : (((x + y * n : Nat) : Int) = ((m + (di + m) * n : Nat) : Int)) ↔ x = m ∧ y = di + m := by
      rw [Nat.cast_inj]
      constructor
      · intro h
        have h1 : x = m := by
          have := congrArg (· % n) h
          simpa [Nat.add_mul_mod_self_right, Nat.mod_eq_of_lt hx, Nat.mod_eq_of_lt (show m < n by omega)] using this
        subst h1
        have h2 : y * n = (di + x) * n := by omega
        exact ⟨rfl, Nat.eq_of_mul_eq_mul_right (by omega) h2⟩
      · rintro ⟨rfl, rfl⟩; rfl
    simp only [e]
    split_ifs with h1 h2 h2 <;> first | rfl | omega

omit [DecidableEq K] in
theorem shift_ok {ext : Key → Nat} {di : Nat} {j ij : Index} (hj : j.dim = ext j.key) (hij : ij.dim = ext ij.key) (h0 : 0 < j.dim) (hd : ij.dim = di + j.dim) (hq : j.qns = [])
    (hq' : ij.qns = []) (hne : j.key ≠ ij.key) : (shiftIT di j ij : IT K).OK ext := by
  refine ⟨⟨by simp [keys, hne], ?_, ?_, ?_⟩, by simp⟩
  all_goals simp only [List.mem_cons, List.not_mem_nil, or_false, forall_eq_or_imp, forall_eq]
  · exact ⟨hj, hij⟩
  · exact ⟨h0, by omega⟩
  · exact ⟨hq, hq'⟩

omit [DecidableEq K] in
theorem mul_shift {ext : Key → Nat} {T : Ten Key K} (hT : T.OK) {di : Nat} {j ij : Index} (hj : j.dim = ext j.key) (hd : ij.dim = di + j.dim)
    (hjT : j.key ∈ T.inds) (hijT : ij.key ∉ T.inds) {σ : Key → Nat} (hσ : σ ij.key < ij.dim) :
    (mul ext T (shiftIT di j ij : IT K).sem).val σ = if di ≤ σ ij.key then T.val (Function.update σ j.key (σ ij.key - di)) else 0 := by
  have hne : j.key ≠ ij.key := fun e => hijT (e ▸ hjT)
  have hinds : (shiftIT di j ij : IT K).sem.inds = [j.key, ij.key] := rfl
  have hfil : T.inds.filter (· ∈ [j.key, ij.key]) = [j.key] := by
    refine List.perm_singleton.1 ((List.perm_ext_iff_of_nodup (hT.nodup.filter _) (List.nodup_singleton _)).2 fun k => ?_)
    simp only [List.mem_filter, List.mem_cons, List.not_mem_nil, or_false, decide_eq_true_eq]
    constructor
    · rintro ⟨h1, rfl | rfl⟩
      · rfl
      · exact absurd h1 hijT
    · rintro rfl
      exact ⟨hjT, .inl rfl⟩
  simp only [mul, hinds, hfil, sumOver]
  have hval : ∀ x, x < j.dim → (shiftIT di j ij : IT K).sem.val (Function.update σ j.key x) = if σ ij.key = di + x then 1 else 0 := by
    intro x hx
    change (List.range j.dim).foldl _ (fun _ => 0) ((rank [j.dim, ij.dim] [Function.update σ j.key x j.key, Function.update σ j.key x ij.key] : Nat) : Int) = _
    rw [Function.update_self, Function.update_of_ne hne.symm]
    have : rank [j.dim, ij.dim] [x, σ ij.key] = x + σ ij.key * j.dim := by simp [rank, Nat.mul_comm]
    rw [this, shift_mem K di j.dim j.dim le_rfl x _ hx]
    simp [hx]
  rw [← hj]
  rw [Finset.sum_congr rfl fun x hx => by rw [hval x (Finset.mem_range.1 hx)]]
  split_ifs with h
  · rw [Finset.sum_eq_single (σ ij.key - di)]
    · rw [if_pos (by omega), mul_one]
    · intro x _ hx
      rw [if_neg (by omega), mul_zero]
    · intro h'
      exact absurd (Finset.mem_range.2 (by omega)) h'
  · refine Finset.sum_eq_zero fun x _ => ?_
    rw [if_neg (by omega), mul_zero]

/-! ## The loop -/

theorem arrow_ok {is : IndexSet} {i : Index} (h : i.key ∈ keys is) : arrow is i = .ok i ∨ arrow is i = .ok i.dag := by
  unfold arrow
  cases hf : is.find? (·.eq i) with
  | none =>
    rw [← hasIndex_iff, hasIndex, List.any_eq_true] at h
    obtain ⟨x, hx, he⟩ := h
    exact absurd he (List.find?_eq_none.1 hf x hx)
  | some x =>
    dsimp only
    split_ifs
    · exact .inr rfl
    · exact .inl rfl

theorem IT.mulEq_dense {fuel : Nat} {junk fresh : Int → K} {a b : DS K} (ha : a.is.length ≠ 0) (hb : b.is.length ≠ 0) {N : IT K} (h : (IT.dense a).mulEq fuel junk fresh (.dense b) = some (.ok N)) :
    ∃ n, N = .dense n := by
  unfold IT.mulEq at h
  rw [if_neg (show ¬ (IT.dense a).is.length = 0 from ha), if_neg (show ¬ (IT.dense b).is.length = 0 from hb)] at h
  simp only at h
  generalize DTensor.contractDense (K := K) _ _ _ _ _ = r at h
  rcases r with _ | _ | _ | _ <;> simp [Run.bind] at h
  exact ⟨_, h.symm⟩

omit [DecidableEq K] in
theorem pullA_of {I IJ : IndexSet} {σ : Key → Nat} {k : Key} (h : k ∉ keys I) : pullA I IJ σ k = σ k := by
  induction I generalizing IJ with
  | nil => rfl
  | cons i I ih =>
    cases IJ with
    | nil => rfl
    | cons ij IJ =>
      simp only [keys, List.map_cons, List.mem_cons, not_or] at h
      rw [pullA]
      refine (if_neg h.1).trans ?_
      exact ih h.2

omit [DecidableEq K] in
theorem pullB_of {I J IJ : IndexSet} {σ : Key → Nat} {k : Key} (h : k ∉ keys J) : pullB I J IJ σ k = σ k := by
  induction J generalizing I IJ with
  | nil => cases I <;> rfl
  | cons j J ih =>
    cases I with
    | nil => rfl
    | cons i I =>
      cases IJ with
      | nil => rfl
      | cons ij IJ =>
        simp only [keys, List.map_cons, List.mem_cons, not_or] at h
        rw [pullB]
        refine (if_neg h.1).trans ?_
        exact ih h.2

/-- The indices after a product with a matrix one of whose indices is shared. -/
theorem mul_inds {ext : Key → Nat} {T S : Ten Key K} (hT : T.inds.Nodup) {i ij : Key} (hS : S.inds = [i, ij]) {r ks : List Key} (hp : T.inds.Perm (r ++ i :: ks)) (hij : ij ∉ T.inds) :
    (mul ext T S).inds.Perm (r ++ [ij] ++ ks) := by
  have hi : i ∈ T.inds := hp.mem_iff.2 (by simp)
  have hne : i ≠ ij := fun e => hij (e ▸ hi)
  have hn := hp.nodup_iff.1 hT
  have e1 : (T.inds.filter (· ∉ [i, ij])).Perm (r ++ ks) := by
    refine (hp.filter _).trans (List.Perm.of_eq ?_)
    rw [List.filter_append, List.filter_cons]
    have h1 : ∀ k ∈ r ++ ks, k ≠ i ∧ k ≠ ij := by
      intro k hk
      refine ⟨fun e => ?_, fun e => hij (hp.mem_iff.2 ?_)⟩
      · subst e
        have := (List.nodup_middle.1 hn)
        exact (List.nodup_cons.1 this).1 hk
      · subst e
        simp only [List.mem_append, List.mem_cons] at hk ⊢
        tauto
    rw [if_neg (by simp), List.filter_eq_self.2, List.filter_eq_self.2]
    · intro k hk
      have := h1 k (by simp [hk])
      simp [this]
    · intro k hk
      have := h1 k (by simp [hk])
      simp [this]
  simp only [mul, hS]
  refine (e1.append (List.Perm.of_eq (show _ = [ij] by simp [hi, hij]))).trans ?_
  rw [List.append_assoc, List.append_assoc]
  exact List.Perm.append_left _ List.perm_append_comm

/-- The first tensor after a round. -/
theorem stepA {ext : Key → Nat} {a : DS K} (ha : a.OK ext) {i ij : Index} {r ks : List Key} (hp : (keys a.is).Perm (r ++ i.key :: ks)) (hlen : 2 ≤ a.is.length) (hi : i.dim = ext i.key)
    (hij : ij.dim = ext ij.key) (h0 : 0 < i.dim) (hle : i.dim ≤ ij.dim) (hq : i.qns = []) (hq' : ij.qns = []) (hf : ij.key ∉ keys a.is) {m fuel : Nat} (hm : (m : Int) ≤ offMax) (hmf : m < fuel)
    (hs : ((r ++ [ij.key] ++ ks).map ext).prod ≤ m) (hs' : ext i.key * ext ij.key ≤ m) (junk fresh : Int → K) :
    ∃ n, (IT.dense a).mulEq fuel junk fresh (deltaIT i ij) = some (.ok (.dense n)) ∧ n.OK ext ∧ (keys n.is).Perm (r ++ [ij.key] ++ ks) ∧
      ∀ σ : Key → Nat, (∀ k ∈ r ++ [ij.key] ++ ks, σ k < ext k) → n.sem.val σ = if σ ij.key < i.dim then a.sem.val (Function.update σ i.key (σ ij.key)) else 0 := by
  have hik : i.key ∈ keys a.is := hp.mem_iff.2 (by simp)
  have hne : i.key ≠ ij.key := fun e => hf (e ▸ hik)
  have hD : (deltaIT i ij : IT K).OK ext := delta_ok hi hij h0 hle hq hq' hne
  have hS : (deltaIT i ij : IT K).sem.inds = [i.key, ij.key] := rfl
  have hinds := mul_inds (ext := ext) (T := a.sem) (S := (deltaIT i ij : IT K).sem) ha.is.nodup hS hp hf
  obtain ⟨k, hk1, hk2⟩ : ∃ k ∈ keys a.is, k ∉ keys [i, ij] := by
    have hl : 2 ≤ (r ++ i.key :: ks).length := by
      rw [← hp.length_eq]
      simpa [keys] using hlen
    have hn := hp.nodup_iff.1 ha.is.nodup
    have hn' := List.nodup_cons.1 (List.nodup_middle.1 hn)
    obtain ⟨k, hk⟩ : ∃ k, k ∈ r ++ ks := by
      rcases hrk : r ++ ks with _ | ⟨k, l⟩
      · have := congrArg List.length hrk
        simp only [List.length_append, List.length_nil, List.length_cons] at this hl
        omega
      · exact ⟨k, by simp⟩
    have hka : k ∈ keys a.is := hp.mem_iff.2 (by simp only [List.mem_append, List.mem_cons] at hk ⊢; tauto)
    refine ⟨k, hka, ?_⟩
    simp only [keys, List.map_cons, List.map_nil, List.mem_cons, List.not_mem_nil, or_false, not_or]
    exact ⟨fun e => hn'.1 (e ▸ hk), fun e => hf (e ▸ hka)⟩
  have hprod : ((keys a.is).map ext).prod ≤ m := by
    refine le_trans ?_ hs
    rw [(hp.map ext).prod_eq]
    simp only [List.map_append, List.map_cons, List.map_nil, List.prod_append, List.prod_cons, List.prod_nil, mul_one, ← hi, ← hij, mul_assoc]
    gcongr
  have hDp : ((keys (deltaIT i ij : IT K).is).map ext).prod ≤ m := by
    change (([i.key, ij.key]).map ext).prod ≤ m
    simpa using hs'
  have hNp : ((mul ext a.sem (deltaIT i ij : IT K).sem).inds.map ext).prod ≤ m := by
    rw [(hinds.map ext).prod_eq]
    exact hs
  obtain ⟨N, h1, h2⟩ := C28_operator_partial (L := .dense a) (R := deltaIT i ij) ha hD (.inr (.inr fun hh => absurd (hh k hk1) hk2)) fuel
    (le_trans (Int.ofNat_le.2 hprod) hm) (le_trans (Int.ofNat_le.2 hDp) hm) (le_trans (Int.ofNat_le.2 hNp) hm) (by exact lt_of_le_of_lt hprod hmf) (by exact lt_of_le_of_lt hDp hmf)
    (by exact lt_of_le_of_lt hNp hmf) junk fresh
  have hdense : ∃ n, N = .dense n := by
    have h1' := h1
    unfold IT.mulEq at h1'
    rw [if_neg (show ¬ (IT.dense a).is.length = 0 by change ¬ a.is.length = 0; omega), if_neg (show ¬ (deltaIT i ij : IT K).is.length = 0 from Nat.succ_ne_zero 1)] at h1'
    exact (mulDenseDiag_dense ha.is.nodup (show (keys [i, ij]).Nodup by simp [keys, hne]) hk1 hk2).1 h1'
  obtain ⟨n, rfl⟩ := hdense
  refine ⟨n, h1, h2.ok, h2.inds.trans hinds, fun σ hσ => ?_⟩
  have hσ' : ∀ k ∈ (mul ext a.sem (deltaIT i ij : IT K).sem).inds, σ k < ext k := fun k hk => hσ k (hinds.mem_iff.1 hk)
  have e := h2.elt σ hσ'
  rw [(IT.holds_sem h2.ok).elt σ fun k hk => hσ' k (h2.inds.mem_iff.1 (by rwa [IT.inds_sem] at hk))] at e
  exact (Res.ok.inj e).trans (mul_delta (DS.sem_ok ha) hi hij h0 hle hq hq' hik hf σ)

/-- The second tensor after a round. -/
theorem stepB {ext : Key → Nat} {b : DS K} (hb : b.OK ext) {di : Nat} {j ij : Index} {r ks : List Key} (hp : (keys b.is).Perm (r ++ j.key :: ks)) (hj : j.dim = ext j.key)
    (hij : ij.dim = ext ij.key) (h0 : 0 < j.dim) (hd : ij.dim = di + j.dim) (hq : j.qns = []) (hq' : ij.qns = []) (hf : ij.key ∉ keys b.is) {m fuel : Nat} (hm : (m : Int) ≤ offMax) (hmf : m < fuel)
    (hs : ((r ++ [ij.key] ++ ks).map ext).prod ≤ m) (hs' : ext j.key * ext ij.key ≤ m) (junk fresh : Int → K) :
    ∃ n, (IT.dense b).mulEq fuel junk fresh (shiftIT di j ij) = some (.ok (.dense n)) ∧ n.OK ext ∧ (keys n.is).Perm (r ++ [ij.key] ++ ks) ∧
      ∀ σ : Key → Nat, (∀ k ∈ r ++ [ij.key] ++ ks, σ k < ext k) → n.sem.val σ = if di ≤ σ ij.key then b.sem.val (Function.update σ j.key (σ ij.key - di)) else 0 := by
  have hik : j.key ∈ keys b.is := hp.mem_iff.2 (by simp)
  have hne : j.key ≠ ij.key := fun e => hf (e ▸ hik)
  have hD : (shiftIT di j ij : IT K).OK ext := shift_ok hj hij h0 hd hq hq' hne
  have hS : (shiftIT di j ij : IT K).sem.inds = [j.key, ij.key] := rfl
  have hinds := mul_inds (ext := ext) (T := b.sem) (S := (shiftIT di j ij : IT K).sem) hb.is.nodup hS hp hf
  have hprod : ((keys b.is).map ext).prod ≤ m := by
    refine le_trans ?_ hs
    rw [(hp.map ext).prod_eq]
    have : j.dim ≤ ij.dim := by omega
    simp only [List.map_append, List.map_cons, List.map_nil, List.prod_append, List.prod_cons, List.prod_nil, mul_one, ← hj, ← hij, mul_assoc]
    gcongr
  have hDp : ((keys (shiftIT di j ij : IT K).is).map ext).prod ≤ m := by
    change (([j.key, ij.key]).map ext).prod ≤ m
    simpa using hs'
  have hNp : ((mul ext b.sem (shiftIT di j ij : IT K).sem).inds.map ext).prod ≤ m := by
    rw [(hinds.map ext).prod_eq]
    exact hs
  obtain ⟨N, h1, h2⟩ := C28_operator_partial (L := .dense b) (R := shiftIT di j ij) hb hD (.inr (.inr trivial)) fuel
    (le_trans (Int.ofNat_le.2 hprod) hm) (le_trans (Int.ofNat_le.2 hDp) hm) (le_trans (Int.ofNat_le.2 hNp) hm) (by exact lt_of_le_of_lt hprod hmf) (by exact lt_of_le_of_lt hDp hmf)
    (by exact lt_of_le_of_lt hNp hmf) junk fresh
  have hdense : ∃ n, N = .dense n := by
    refine IT.mulEq_dense ?_ (by simp) h1
    intro h
    have := List.eq_nil_of_length_eq_zero h
    rw [this] at hik
    simp [keys] at hik
  obtain ⟨n, rfl⟩ := hdense
  refine ⟨n, h1, h2.ok, h2.inds.trans hinds, fun σ hσ => ?_⟩
  have hσ' : ∀ k ∈ (mul ext b.sem (shiftIT di j ij : IT K).sem).inds, σ k < ext k := fun k hk => hσ k (hinds.mem_iff.1 hk)
  have e := h2.elt σ hσ'
  rw [(IT.holds_sem h2.ok).elt σ fun k hk => hσ' k (h2.inds.mem_iff.1 (by rwa [IT.inds_sem] at hk))] at e
  exact (Res.ok.inj e).trans (mul_shift (DS.sem_ok hb) hj hd hik hf (by rw [hij]; exact hσ _ (by simp)))

theorem sumInds_dag (tags : Verif.TagSet.TagSet) (id : Nat) (i j : Index) : sumIndex id tags i.dag j = sumIndex id tags i j ∧ sumIndex id tags i j.dag = sumIndex id tags i j ∧
    sumIndex id tags i.dag j.dag = sumIndex id tags i j := ⟨rfl, rfl, rfl⟩

/-- The indices to be summed, as the user gives them: different indices of the two tensors, and new numbers for the indices made. -/
structure SumOK (ext : Key → Nat) (tags : Verif.TagSet.TagSet) (ids : List Nat) (I J : IndexSet) : Prop where
  lenI : I.length = ids.length
  lenJ : J.length = ids.length
  okI : IsOK ext I
  okJ : IsOK ext J
  nodup : (keys (sumInds tags ids I J)).Nodup
  dims : ∀ ij ∈ sumInds tags ids I J, ij.dim = ext ij.key

theorem sumInds_len {tags : Verif.TagSet.TagSet} : ∀ {ids : List Nat} {I J : IndexSet}, I.length = ids.length → J.length = ids.length → (sumInds tags ids I J).length = ids.length
  | [], _, _, _, _ => by simp [sumInds]
  | id :: ids, i :: I, j :: J, h1, h2 => by
    simp only [List.length_cons, Nat.add_right_cancel_iff] at h1 h2
    simp [sumInds, sumInds_len h1 h2]
  | _ :: _, [], _, h1, _ => by simp at h1
  | _ :: _, _ :: _, [], _, h2 => by simp at h2

theorem pull_bd {ext : Key → Nat} {tags : Verif.TagSet.TagSet} : ∀ {ids : List Nat} {I J : IndexSet}, I.length = ids.length → J.length = ids.length → IsOK ext I →
    ∀ {σ : Key → Nat}, InA I (sumInds tags ids I J) σ → ∀ {k : Key}, k ∈ keys I → pullA I (sumInds tags ids I J) σ k < ext k
  | [], I, _, h1, _, _, _, _, k, hk => by
    rw [List.eq_nil_of_length_eq_zero h1] at hk
    simp [keys] at hk
  | _ :: _, [], _, h1, _, _, _, _, _, _ => by simp at h1
  | _ :: _, _ :: _, [], _, h2, _, _, _, _, _ => by simp at h2
  | id :: ids, i :: I, j :: J, h1, h2, o, σ, hin, k, hk => by
    simp only [List.length_cons, Nat.add_right_cancel_iff] at h1 h2
    have o' : IsOK ext I := ⟨(List.nodup_cons.1 o.nodup).2, fun x hx => o.dims x (by simp [hx]), fun x hx => o.pos x (by simp [hx]), fun x hx => o.noqn x (by simp [hx])⟩
    simp only [InA, sumInds, List.zip_cons_cons, List.mem_cons, forall_eq_or_imp] at hin
    simp only [sumInds, pullA]
    split_ifs with hki
    · rw [hki, ← o.dims i (by simp)]
      exact hin.1
    · refine pull_bd h1 h2 o' hin.2 ?_
      simp only [keys, List.map_cons, List.mem_cons] at hk
      exact hk.resolve_left hki

theorem pullB_bd {ext : Key → Nat} {tags : Verif.TagSet.TagSet} : ∀ {ids : List Nat} {I J : IndexSet}, I.length = ids.length → J.length = ids.length → IsOK ext I → IsOK ext J →
    (∀ ij ∈ sumInds tags ids I J, ij.dim = ext ij.key) → ∀ {σ : Key → Nat}, (∀ k ∈ keys (sumInds tags ids I J), σ k < ext k) → InB I (sumInds tags ids I J) σ →
      ∀ {k : Key}, k ∈ keys J → pullB I J (sumInds tags ids I J) σ k < ext k
  | [], _, J, _, h2, _, _, _, _, _, _, k, hk => by
    rw [List.eq_nil_of_length_eq_zero h2] at hk
    simp [keys] at hk
  | _ :: _, [], _, h1, _, _, _, _, _, _, _, _, _ => by simp at h1
  | _ :: _, _ :: _, [], _, h2, _, _, _, _, _, _, _, _ => by simp at h2
  | id :: ids, i :: I, j :: J, h1, h2, o, u, hd, σ, hσ, hin, k, hk => by
    simp only [List.length_cons, Nat.add_right_cancel_iff] at h1 h2
    have o' : IsOK ext I := ⟨(List.nodup_cons.1 o.nodup).2, fun x hx => o.dims x (by simp [hx]), fun x hx => o.pos x (by simp [hx]), fun x hx => o.noqn x (by simp [hx])⟩
    have u' : IsOK ext J := ⟨(List.nodup_cons.1 u.nodup).2, fun x hx => u.dims x (by simp [hx]), fun x hx => u.pos x (by simp [hx]), fun x hx => u.noqn x (by simp [hx])⟩
    simp only [InB, sumInds, List.zip_cons_cons, List.mem_cons, forall_eq_or_imp] at hin
    have h3 := hd (sumIndex id tags i j) (by simp [sumInds])
    rw [sumIndex_dim (o.pos i (by simp))] at h3
    have h4 := hσ (sumIndex id tags i j).key (by simp [sumInds, keys])
    simp only [sumInds, pullB]
    split_ifs with hkj
    · rw [hkj, ← u.dims j (by simp)]
      have := hin.1
      omega
    · refine pullB_bd h1 h2 o' u' (fun x hx => hd x (by simp [sumInds, hx])) (fun k hk => hσ k ?_) hin.2 ?_
      · simp only [sumInds, keys, List.map_cons, List.mem_cons] at hk ⊢
        exact .inr hk
      · simp only [keys, List.map_cons, List.mem_cons] at hk
        exact hk.resolve_left hkj

set_option maxHeartbeats 1000000 in
theorem loop_ok {ext : Key → Nat} {tags : Verif.TagSet.TagSet} {Ais Bis : IndexSet} {m fuel : Nat} (hm : (m : Int) ≤ offMax) (hmf : m < fuel) (junk fresh : Int → K) :
    ∀ (ids : List Nat) (I J : IndexSet), SumOK ext tags ids I J → (∀ k ∈ keys I, k ∈ keys Ais) → (∀ k ∈ keys J, k ∈ keys Bis) →
      ∀ (a b : DS K) (rA rB : List Key), a.OK ext → b.OK ext → (keys a.is).Perm (rA ++ keys I) → (keys b.is).Perm (rB ++ keys J) → 2 ≤ a.is.length →
        (∀ k ∈ keys (sumInds tags ids I J), k ∉ keys a.is ∧ k ∉ keys b.is) →
        ((rA ++ keys (sumInds tags ids I J)).map ext).prod ≤ m → ((rB ++ keys (sumInds tags ids I J)).map ext).prod ≤ m →
        (∀ p ∈ I.zip (sumInds tags ids I J), ext p.1.key * ext p.2.key ≤ m) → (∀ p ∈ J.zip (sumInds tags ids I J), ext p.1.key * ext p.2.key ≤ m) →
        ∃ a' b', sumLoop fuel junk fresh tags Ais Bis ids I J (.dense a) (.dense b) = some (.ok (sumInds tags ids I J, .dense a', .dense b')) ∧ a'.OK ext ∧ b'.OK ext ∧
          (keys a'.is).Perm (rA ++ keys (sumInds tags ids I J)) ∧ (keys b'.is).Perm (rB ++ keys (sumInds tags ids I J)) ∧
          (∀ σ : Key → Nat, (∀ k ∈ rA ++ keys (sumInds tags ids I J), σ k < ext k) →
            a'.sem.val σ = if InA I (sumInds tags ids I J) σ then a.sem.val (pullA I (sumInds tags ids I J) σ) else 0) ∧
          (∀ σ : Key → Nat, (∀ k ∈ rB ++ keys (sumInds tags ids I J), σ k < ext k) →
            b'.sem.val σ = if InB I (sumInds tags ids I J) σ then b.sem.val (pullB I J (sumInds tags ids I J) σ) else 0) := by
  intro ids
  induction ids with
  | nil =>
    intro I J h _ _ a b rA rB ha hb pa pb _ _ _ _ _ _
    have hI : I = [] := List.eq_nil_of_length_eq_zero h.lenI
    have hJ : J = [] := List.eq_nil_of_length_eq_zero h.lenJ
    subst hI hJ
    refine ⟨a, b, by simp [sumLoop, sumInds], ha, hb, pa, pb, fun σ _ => ?_, fun σ _ => ?_⟩
    · rw [if_pos (by simp [InA, sumInds])]
      rfl
    · rw [if_pos (by simp [InB, sumInds])]
      rfl
  | cons id ids ih =>
    intro I J h hIA hJB a b rA rB ha hb pa pb hlen hf sA sB zA zB
    cases I with
    | nil => exact absurd h.lenI (by simp)
    | cons i I =>
    cases J with
    | nil => exact absurd h.lenJ (by simp)
    | cons j J =>
    obtain ⟨lI, lJ, oI, oJ, nd, dm⟩ := h
    simp only [List.length_cons, Nat.add_right_cancel_iff] at lI lJ
    set ij := sumIndex id tags i j with hijd
    set L := sumInds tags ids I J with hL
    have hsum : sumInds tags (id :: ids) (i :: I) (j :: J) = ij :: L := rfl
    rw [hsum] at nd dm hf sA sB zA zB ⊢
    have ki : keys (i :: I) = i.key :: keys I := rfl
    have kj : keys (j :: J) = j.key :: keys J := rfl
    have kij : keys (ij :: L) = ij.key :: keys L := rfl
    rw [ki] at pa hIA
    rw [kj] at pb hJB
    rw [kij] at nd hf sA sB ⊢
    have i0 := oI.pos i (by simp)
    have j0 := oJ.pos j (by simp)
    have di := oI.dims i (by simp)
    have dj := oJ.dims j (by simp)
    have dij := dm ij (by simp)
    have hdim : ij.dim = i.dim + j.dim := sumIndex_dim i0
    obtain ⟨hfa, hfb⟩ := hf ij.key (by simp)
    have hnd := List.nodup_cons.1 nd
    have eA : ∀ r : List Key, ((r ++ [ij.key] ++ keys L).map ext).prod = ((r ++ ij.key :: keys L).map ext).prod := fun r => by simp
    -- sizes of what is between
    have small : ∀ {ids : List Nat} {I J : IndexSet}, I.length = ids.length → J.length = ids.length → IsOK ext I → IsOK ext J →
        (∀ ij ∈ sumInds tags ids I J, ij.dim = ext ij.key) → ((keys I).map ext).prod ≤ ((keys (sumInds tags ids I J)).map ext).prod ∧
          ((keys J).map ext).prod ≤ ((keys (sumInds tags ids I J)).map ext).prod := by
      intro ids
      induction ids with
      | nil =>
        intro I J h1 h2 _ _ _
        rw [List.eq_nil_of_length_eq_zero h1, List.eq_nil_of_length_eq_zero h2]
        simp [keys, sumInds]
      | cons id ids ih =>
        intro I J h1 h2 o1 o2 hd
        cases I with
        | nil => exact absurd h1 (by simp)
        | cons i I =>
        cases J with
        | nil => exact absurd h2 (by simp)
        | cons j J =>
        simp only [List.length_cons, Nat.add_right_cancel_iff] at h1 h2
        have o1' : IsOK ext I := ⟨(List.nodup_cons.1 o1.nodup).2, fun x hx => o1.dims x (by simp [hx]), fun x hx => o1.pos x (by simp [hx]), fun x hx => o1.noqn x (by simp [hx])⟩
        have o2' : IsOK ext J := ⟨(List.nodup_cons.1 o2.nodup).2, fun x hx => o2.dims x (by simp [hx]), fun x hx => o2.pos x (by simp [hx]), fun x hx => o2.noqn x (by simp [hx])⟩
        obtain ⟨g1, g2⟩ := ih h1 h2 o1' o2' fun x hx => hd x (by simp [sumInds, hx])
        have e1 := o1.dims i (by simp)
        have e2 := o2.dims j (by simp)
        have e3 := hd (sumIndex id tags i j) (by simp [sumInds])
        rw [sumIndex_dim (o1.pos i (by simp))] at e3
        simp only [sumInds, keys, List.map_cons, List.prod_cons]
        exact ⟨Nat.mul_le_mul (by omega) g1, Nat.mul_le_mul (by omega) g2⟩
    have oI' : IsOK ext I := ⟨(List.nodup_cons.1 oI.nodup).2, fun x hx => oI.dims x (by simp [hx]), fun x hx => oI.pos x (by simp [hx]), fun x hx => oI.noqn x (by simp [hx])⟩
    have oJ' : IsOK ext J := ⟨(List.nodup_cons.1 oJ.nodup).2, fun x hx => oJ.dims x (by simp [hx]), fun x hx => oJ.pos x (by simp [hx]), fun x hx => oJ.noqn x (by simp [hx])⟩
    have dm' : ∀ x ∈ L, x.dim = ext x.key := fun x hx => dm x (by simp [hx])
    obtain ⟨sI, sJ⟩ := small lI lJ oI' oJ' dm'
    have sA' : ((rA ++ [ij.key] ++ keys I).map ext).prod ≤ m := by
      refine le_trans ?_ sA
      rw [← eA]
      simp only [List.map_append, List.prod_append]
      exact Nat.mul_le_mul_left _ sI
    have sB' : ((rB ++ [ij.key] ++ keys J).map ext).prod ≤ m := by
      refine le_trans ?_ sB
      rw [← eA]
      simp only [List.map_append, List.prod_append]
      exact Nat.mul_le_mul_left _ sJ
    have zA0 := zA (i, ij) (by simp)
    have zB0 := zB (j, ij) (by simp)
    -- the round, for either arrow
    have round : ∀ i' j' : Index, (i' = i ∨ i' = i.dag) → (j' = j ∨ j' = j.dag) → ∃ a1 b1, (IT.dense a).mulEq fuel junk fresh (deltaIT i' (sumIndex id tags i' j')) = some (.ok (.dense a1)) ∧
        (IT.dense b).mulEq fuel junk fresh (shiftIT i'.dim j' (sumIndex id tags i' j')) = some (.ok (.dense b1)) ∧ a1.OK ext ∧ b1.OK ext ∧
        (keys a1.is).Perm (rA ++ [ij.key] ++ keys I) ∧ (keys b1.is).Perm (rB ++ [ij.key] ++ keys J) ∧ sumIndex id tags i' j' = ij ∧
        (∀ σ : Key → Nat, (∀ k ∈ rA ++ [ij.key] ++ keys I, σ k < ext k) → a1.sem.val σ = if σ ij.key < i.dim then a.sem.val (Function.update σ i.key (σ ij.key)) else 0) ∧
        (∀ σ : Key → Nat, (∀ k ∈ rB ++ [ij.key] ++ keys J, σ k < ext k) → b1.sem.val σ = if i.dim ≤ σ ij.key then b.sem.val (Function.update σ j.key (σ ij.key - i.dim)) else 0) := by
      intro i' j' hi' hj'
      have e1 : i'.key = i.key ∧ i'.dim = i.dim ∧ i'.qns = i.qns := by rcases hi' with rfl | rfl <;> exact ⟨rfl, rfl, rfl⟩
      have e2 : j'.key = j.key ∧ j'.dim = j.dim ∧ j'.qns = j.qns := by rcases hj' with rfl | rfl <;> exact ⟨rfl, rfl, rfl⟩
      have e3 : sumIndex id tags i' j' = ij := by rcases hi' with rfl | rfl <;> rcases hj' with rfl | rfl <;> rfl
      rw [e3]
      obtain ⟨a1, g1, g2, g3, g4⟩ := stepA ha (i := i') (ij := ij) (by rw [e1.1]; exact pa) hlen (by rw [e1.1, e1.2.1]; exact di) dij (by rw [e1.2.1]; exact i0) (by rw [e1.2.1]; omega)
        (by rw [e1.2.2]; exact oI.noqn i (by simp)) rfl hfa hm hmf sA' (by rw [e1.1]; exact zA0) junk fresh
      obtain ⟨b1, f1, f2, f3, f4⟩ := stepB hb (di := i'.dim) (j := j') (ij := ij) (by rw [e2.1]; exact pb) (by rw [e2.1, e2.2.1]; exact dj) dij (by rw [e2.2.1]; exact j0)
        (by rw [e1.2.1, e2.2.1]; exact hdim) (by rw [e2.2.2]; exact oJ.noqn j (by simp)) rfl hfb hm hmf sB' (by rw [e2.1]; exact zB0) junk fresh
      rw [e1.1, e1.2.1] at g4
      rw [e1.2.1, e2.1] at f4
      exact ⟨a1, b1, g1, f1, g2, f2, g3, f3, rfl, g4, f4⟩
    obtain ⟨i', hi', ai⟩ : ∃ i', (i' = i ∨ i' = i.dag) ∧ arrow Ais i = .ok i' := by
      rcases arrow_ok (hIA i.key (by simp)) with h | h
      · exact ⟨_, .inl rfl, h⟩
      · exact ⟨_, .inr rfl, h⟩
    obtain ⟨j', hj', aj⟩ : ∃ j', (j' = j ∨ j' = j.dag) ∧ arrow Bis j = .ok j' := by
      rcases arrow_ok (hJB j.key (by simp)) with h | h
      · exact ⟨_, .inl rfl, h⟩
      · exact ⟨_, .inr rfl, h⟩
    obtain ⟨a1, b1, g1, f1, g2, f2, g3, f3, e3, g4, f4⟩ := round i' j' hi' hj'
    have hlen1 : 2 ≤ a1.is.length := by
      have h1 := g3.length_eq
      have h2 := pa.length_eq
      simp only [keys, List.length_map, List.length_append, List.length_cons, List.length_nil] at h1 h2
      omega
    have fresh1 : ∀ k ∈ keys L, k ∉ keys a1.is ∧ k ∉ keys b1.is := by
      intro k hk
      have hne : k ≠ ij.key := fun e => hnd.1 (e ▸ hk)
      obtain ⟨n1, n2⟩ := hf k (by simp [hk])
      rw [pa.mem_iff] at n1
      rw [pb.mem_iff] at n2
      rw [g3.mem_iff, f3.mem_iff]
      simp only [List.mem_append, List.mem_cons, List.not_mem_nil, or_false, not_or] at n1 n2 ⊢
      exact ⟨⟨⟨n1.1, hne⟩, n1.2.2⟩, ⟨⟨n2.1, hne⟩, n2.2.2⟩⟩
    obtain ⟨a', b', q1, q2, q3, q4, q5, q6, q7⟩ := ih I J ⟨lI, lJ, oI', oJ', hnd.2, dm'⟩ (fun k hk => hIA k (by simp [hk])) (fun k hk => hJB k (by simp [hk])) a1 b1 (rA ++ [ij.key])
      (rB ++ [ij.key]) g2 f2 g3 f3 hlen1 fresh1 (by rw [eA]; exact sA) (by rw [eA]; exact sB) (fun p hp => zA p (by simp only [List.zip_cons_cons, List.mem_cons]; exact .inr hp))
      (fun p hp => zB p (by simp only [List.zip_cons_cons, List.mem_cons]; exact .inr hp))
    have eP : ∀ r : List Key, r ++ [ij.key] ++ keys L = r ++ ij.key :: keys L := fun r => by simp
    rw [eP] at q4 q5 q6 q7
    have nI : i.key ∉ keys I := (List.nodup_cons.1 oI.nodup).1
    have nJ : j.key ∉ keys J := (List.nodup_cons.1 oJ.nodup).1
    have nijI : ij.key ∉ keys I := fun h => hfa (pa.mem_iff.2 (by simp [h]))
    have nijJ : ij.key ∉ keys J := fun h => hfb (pb.mem_iff.2 (by simp [h]))
    refine ⟨a', b', ?_, q2, q3, q4, q5, fun σ hσ => ?_, fun σ hσ => ?_⟩
    · unfold sumLoop
      rw [ai, aj]
      simp only
      rw [g1]
      simp only [Run.bind]
      rw [f1]
      simp only
      rw [q1, e3]
    · rw [q6 σ hσ]
      have hiff : InA (i :: I) (ij :: L) σ ↔ σ ij.key < i.dim ∧ InA I L σ := by
        simp only [InA, List.zip_cons_cons, List.mem_cons, forall_eq_or_imp]
      by_cases hin : InA I L σ
      · have hb : ∀ k ∈ rA ++ [ij.key] ++ keys I, pullA I L σ k < ext k := by
          intro k hk
          by_cases hkI : k ∈ keys I
          · exact pull_bd lI lJ oI' hin hkI
          · rw [pullA_of hkI]
            refine hσ k ?_
            simp only [List.mem_append, List.mem_cons, List.not_mem_nil, or_false] at hk ⊢
            tauto
        rw [if_pos hin, g4 _ hb, pullA_of nijI]
        have hp : Function.update (pullA I L σ) i.key (σ ij.key) = pullA (i :: I) (ij :: L) σ := by
          funext k
          simp only [Function.update_apply, pullA]
        rw [hp]
        simp only [hiff, hin, and_true]
      · rw [if_neg hin, if_neg fun h => hin (hiff.1 h).2]
    · rw [q7 σ hσ]
      have hiff : InB (i :: I) (ij :: L) σ ↔ i.dim ≤ σ ij.key ∧ InB I L σ := by
        simp only [InB, List.zip_cons_cons, List.mem_cons, forall_eq_or_imp]
      by_cases hin : InB I L σ
      · have hb : ∀ k ∈ rB ++ [ij.key] ++ keys J, pullB I J L σ k < ext k := by
          intro k hk
          by_cases hkJ : k ∈ keys J
          · exact pullB_bd lI lJ oI' oJ' dm' (fun k hk => hσ k (List.mem_append_right _ (List.mem_cons_of_mem _ hk))) hin hkJ
          · rw [pullB_of hkJ]
            refine hσ k ?_
            simp only [List.mem_append, List.mem_cons, List.not_mem_nil, or_false] at hk ⊢
            tauto
        rw [if_pos hin, f4 _ hb, pullB_of nijJ]
        have hp : Function.update (pullB I J L σ) j.key (σ ij.key - i.dim) = pullB (i :: I) (j :: J) (ij :: L) σ := by
          funext k
          simp only [Function.update_apply, pullB]
        rw [hp]
        simp only [hiff, hin, and_true]
      · rw [if_neg hin, if_neg fun h => hin (hiff.1 h).2]

/-! ## The property -/

/-- **C98.** `directSum(A,B,I,J)` of two dense tensors that have the indices `r` in common besides those to be summed, the `n`-th of `I` with the `n`-th of `J`, returns the new
indices and the tensor with the indices `r` and the new ones whose elements are those of `A` where every new index has a value of the index of `A`, those of `B` where every new index
has a value beyond, shifted by the dimension of the index of `A`, and zero where some have the one and some the other. `junk` is what is in the memory of the buffers of the products.
The new indices are distinct from those there are. Missing: `A` with a single index, see `C98_vector_counterexample`; diagonal tensors, see `C98_diag_counterexample`; tensors with
quantum numbers. -/
theorem C98_directSum_partial {ext : Key → Nat} {tags : Verif.TagSet.TagSet} {ids : List Nat} {I J : IndexSet} (h : SumOK ext tags ids I J) {a b : DS K} (ha : a.OK ext)
    (hb : b.OK ext) {r : List Key} (pa : (keys a.is).Perm (r ++ keys I)) (pb : (keys b.is).Perm (r ++ keys J)) (hlen : 2 ≤ a.is.length)
    (hf : ∀ k ∈ keys (sumInds tags ids I J), k ∉ keys a.is ∧ k ∉ keys b.is) {m fuel : Nat} (hm : (m : Int) ≤ offMax) (hmf : m < fuel)
    (hs : ((r ++ keys (sumInds tags ids I J)).map ext).prod ≤ m) (hI : ∀ p ∈ I.zip (sumInds tags ids I J), p.1.dim * p.2.dim ≤ m)
    (hJ : ∀ p ∈ J.zip (sumInds tags ids I J), p.1.dim * p.2.dim ≤ m) (junk fresh : Int → K) :
    ∃ C, directSum fuel junk fresh tags ids (.dense a) (.dense b) I J = some (.ok (C, sumInds tags ids I J)) ∧
      Holds ext C ⟨r ++ keys (sumInds tags ids I J), fun σ =>
        (if InA I (sumInds tags ids I J) σ then a.sem.val (pullA I (sumInds tags ids I J) σ) else 0) +
          if InB I (sumInds tags ids I J) σ then b.sem.val (pullB I J (sumInds tags ids I J) σ) else 0⟩ := by
  have e1 : ∀ (Q : IndexSet), IsOK ext Q → (∀ p ∈ Q.zip (sumInds tags ids I J), p.1.dim * p.2.dim ≤ m) → ∀ p ∈ Q.zip (sumInds tags ids I J), ext p.1.key * ext p.2.key ≤ m := by
    intro Q hQ hz p hp
    rw [← hQ.dims _ (List.of_mem_zip hp).1, ← h.dims _ (List.of_mem_zip hp).2]
    exact hz p hp
  obtain ⟨a', b', q1, q2, q3, q4, q5, q6, q7⟩ := loop_ok (Ais := a.is) (Bis := b.is) hm hmf junk fresh ids I J h (fun k hk => pa.mem_iff.2 (by simp [hk])) (fun k hk => pb.mem_iff.2 (by simp [hk]))
    a b r r ha hb pa pb hlen hf hs hs (e1 I h.okI hI) (e1 J h.okJ hJ)
  have hd : ((IT.dense a').is.map (·.dim)).prod = ((r ++ keys (sumInds tags ids I J)).map ext).prod := by
    rw [IT.dims (T := .dense a') (ext := ext) q2]
    exact (q4.map ext).prod_eq
  obtain ⟨⟨N, n1, n2⟩, -⟩ := C64_operators_partial (L := .dense a') (R := .dense b') q2 q3 (q5.trans q4.symm) false (by simp) (fun _ => trivial) fuel
    (by rw [hd]; exact_mod_cast le_trans (Int.ofNat_le.2 hs) hm) (by rw [hd]; omega)
  refine ⟨N, ?_, n2.ok, n2.inds.trans q4, fun σ hσ => ?_⟩
  · unfold directSum
    rw [if_neg (by rw [h.lenI, h.lenJ]; simp)]
    change Run.bind (sumLoop fuel junk fresh tags a.is b.is ids I J (.dense a) (.dense b)) _ = _
    rw [q1]
    simp only [Run.bind]
    rw [n1]
  · rw [n2.elt σ fun k hk => hσ k (q4.mem_iff.1 hk)]
    change Res.ok (a'.sem.val σ + b'.sem.val σ) = _
    rw [q6 σ hσ, q7 σ hσ]

/-! ## Cases -/

namespace DirectSumEx

/-- Indices of dimensions 2 and 3 to be summed, and an index of dimension 2 of both tensors. -/
def i : Index := DiagEx.ix 1 2
def j : Index := DiagEx.ix 2 3
def s : Index := DiagEx.ix 3 2

def ext (k : Key) : Nat := if k = i.key then 2 else if k = j.key then 3 else if k = s.key then 2 else 5

/-- `A(i,s)` and `B(s,j)`. -/
def A : DS Int := ⟨[i, s], 4, fun a => 1 + a⟩
def B : DS Int := ⟨[s, j], 6, fun a => 10 + a⟩

/-- The indices, the number of elements stored and those. -/
def cells : Run (IT Int × IndexSet) → Option (Res (List Nat × List Nat × List Int))
  | some (.ok (.dense t, L)) => some (.ok (t.is.map (·.id), L.map (·.dim), (List.range t.size).map fun (a : Nat) => t.mem a))
  | some (.ok (.diag t, L)) => some (.ok (t.is.map (·.id), L.map (·.dim), t.store))
  | some .throw => some .throw
  | some .ub => some .ub
  | none => none

/-- An element of the result. -/
def elt (vals : List Nat) : Run (IT Int × IndexSet) → Option (Res Int)
  | some (.ok (C, _)) => some (C.getElt vals)
  | _ => none

def tags : Verif.TagSet.TagSet := Verif.TagSet.TagSet.default
def run (ids : List Nat) (A B : IT Int) (I J : IndexSet) : Run (IT Int × IndexSet) := directSum 100 (fun _ => 77) (fun _ => 55) tags ids A B I J

/-- One pair of indices, two pairs, and the summands exchanged. -/
example : cells (run [9] (.dense A) (.dense B) [i] [j]) = some (.ok ([3, 9], [5], [1, 3, 2, 4, 10, 11, 12, 13, 14, 15])) := by decide +kernel
example : cells (run [9] (.dense B) (.dense A) [j] [i]) = some (.ok ([3, 9], [5], [10, 11, 12, 13, 14, 15, 1, 3, 2, 4])) := by decide +kernel
example : cells (run [9, 10] (.dense A) (.dense B) [i, s] [s, j]) =
    some (.ok ([9, 10], [4, 5], [1, 2, 0, 0, 3, 4, 0, 0, 0, 0, 10, 11, 0, 0, 12, 13, 0, 0, 14, 15])) := by decide +kernel

/-- Other indices that differ are an error. -/
example : cells (run [9] (.dense A) (.dense B) [i] [s]) = some .throw := by decide +kernel
example : cells (run [9] (.dense A) (.dense B) [i] []) = some .throw := by decide +kernel

theorem okIs (L : IndexSet) (h : (keys L).Nodup ∧ (∀ x ∈ L, x.dim = ext x.key) ∧ (∀ x ∈ L, 0 < x.dim) ∧ ∀ x ∈ L, x.qns = []) : IsOK ext L := ⟨h.1, h.2.1, h.2.2.1, h.2.2.2⟩

theorem okA : A.OK ext := ⟨okIs _ (by decide +kernel), rfl⟩
theorem okB : B.OK ext := ⟨okIs _ (by decide +kernel), rfl⟩

/-- The hypotheses are met. -/
example : SumOK ext tags [9] [i] [j] ∧ A.OK ext ∧ B.OK ext ∧ (keys A.is).Perm ([s.key] ++ keys [i]) ∧ (keys B.is).Perm ([s.key] ++ keys [j]) ∧
    (∀ k ∈ keys (sumInds tags [9] [i] [j]), k ∉ keys A.is ∧ k ∉ keys B.is) ∧ (([s.key] ++ keys (sumInds tags [9] [i] [j])).map ext).prod ≤ 20 ∧
    (∀ p ∈ [i].zip (sumInds tags [9] [i] [j]), p.1.dim * p.2.dim ≤ 20) ∧ ∀ p ∈ [j].zip (sumInds tags [9] [i] [j]), p.1.dim * p.2.dim ≤ 20 :=
  ⟨⟨rfl, rfl, okIs _ (by decide +kernel), okIs _ (by decide +kernel), by decide +kernel, by decide +kernel⟩, okA, okB, by decide +kernel, by decide +kernel, by decide +kernel,
    by decide +kernel, by decide +kernel, by decide +kernel⟩

/-- Vectors `a(i)` and `b(j)`. -/
def va : DS Int := ⟨[i], 2, fun a => 1 + a⟩
def vb : DS Int := ⟨[j], 3, fun a => 10 + a⟩

end DirectSumEx

open DirectSumEx in
/-- The direct sum of two vectors of dimensions 2 and 3 is returned with an index of dimension 5 and a storage of 2 elements, so that reading an element of the second vector reads beyond
its end: the product of a vector and `delta(i,ij)` has a storage with as many elements as the diagonal. -/
theorem C98_vector_counterexample :
    va.OK ext ∧ vb.OK ext ∧ SumOK ext tags [9] [i] [j] ∧ (keys va.is).Perm ([] ++ keys [i]) ∧ (keys vb.is).Perm ([] ++ keys [j]) ∧
    (∀ k ∈ keys (sumInds tags [9] [i] [j]), k ∉ keys va.is ∧ k ∉ keys vb.is) ∧
    cells (run [9] (.dense va) (.dense vb) [i] [j]) = some (.ok ([9], [5], [1, 2])) ∧
    ∀ x ∈ [2, 3, 4], elt [x] (run [9] (.dense va) (.dense vb) [i] [j]) = some .ub :=
  ⟨⟨okIs _ (by decide +kernel), rfl⟩, ⟨okIs _ (by decide +kernel), rfl⟩,
    ⟨rfl, rfl, okIs _ (by decide +kernel), okIs _ (by decide +kernel), by decide +kernel, by decide +kernel⟩, by decide +kernel, by decide +kernel, by decide +kernel,
    by decide +kernel, by decide +kernel⟩

open DirectSumEx in
/-- The direct sum of a diagonal matrix and a dense one is an error. -/
theorem C98_diag_counterexample :
    ∃ D : IT Int, D.OK ext ∧ D.is = [i, s] ∧ cells (run [9] D (.dense B) [i] [j]) = some .throw :=
  ⟨.diag ⟨[i, s], [], 1, 2⟩, ⟨okIs _ (by decide +kernel), by decide, .inr ⟨i, by decide, rfl⟩, .inl rfl⟩, rfl, by decide +kernel⟩

end Verif.Net
