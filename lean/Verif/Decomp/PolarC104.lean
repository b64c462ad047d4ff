import Verif.Decomp.FactorC104
import Verif.Net.Combine
import Mathlib.Data.Matrix.Mul
import Mathlib.LinearAlgebra.Matrix.SemiringInverse

/-!
# C104: `polar`
-/

namespace Verif.Factor

open Verif.Tensor Verif.Index Verif.Index.IndexSet Verif.Net Finset
open Function (update)

variable {K : Type*} [CommRing K] [DecidableEq K]

/-! ### Square isometries -/

section square
omit [DecidableEq K]

/-- A sum over values of labels, by the rank of the values. -/
theorem sumOver_put {ext : Key → Nat} (F : (Key → Nat) → K) {cs : List Key} (hn : cs.Nodup) (ρ : Key → Nat) :
    sumOver ext cs F ρ = ∑ v ∈ range (cs.map ext).prod, F (putRank ext ρ cs v) := by
  have e : sumOver ext cs F ρ = sumOver ext cs (fun σ => ∑ v ∈ range (cs.map ext).prod, F σ * if v = rank (cs.map ext) (cs.map σ) then 1 else 0) ρ := by
    refine sumOver_congr_bd ext cs ρ fun σ _ h => ?_
    have hv : Valid (cs.map ext) (cs.map σ) := by
      unfold Valid
      rw [List.forall₂_map_left_iff, List.forall₂_map_right_iff]
      exact List.forall₂_same.2 h
    rw [← mul_sum, sum_ite_eq', if_pos (mem_range.2 (rank_lt hv)), mul_one]
  rw [e, sumOver_sum]
  exact sum_congr rfl fun v hv => sumOver_rank ext F cs ρ v hn (mem_range.1 hv)

/-- As many orthonormal vectors as there are components are complete. -/
theorem square_complete {ext : Key → Nat} {conj : K →+* K} {c : List Key} (hn : c.Nodup) {W : Nat → (Key → Nat) → K} (hdep : ∀ J, DependsOn (· ∈ c) (W J)) {N : Nat}
    (hN : N = (c.map ext).prod) (ρ : Key → Nat) (hiso : ∀ J < N, ∀ J' < N, sumOver ext c (fun τ => conj (W J τ) * W J' τ) ρ = if J = J' then 1 else 0)
    {σ τ : Key → Nat} (hσ : ∀ k ∈ c, σ k < ext k) (hτ : ∀ k ∈ c, τ k < ext k) :
    ∑ J ∈ range N, conj (W J σ) * W J τ = if ∀ k ∈ c, σ k = τ k then 1 else 0 := by
  have val : ∀ σ : Key → Nat, (∀ k ∈ c, σ k < ext k) → Valid (c.map ext) (c.map σ) := by
    intro σ h
    unfold Valid
    rw [List.forall₂_map_left_iff, List.forall₂_map_right_iff]
    exact List.forall₂_same.2 h
  have put : ∀ σ : Key → Nat, (∀ k ∈ c, σ k < ext k) → ∀ k ∈ c, putRank ext ρ c (rank (c.map ext) (c.map σ)) k = σ k := by
    intro σ h k hk
    obtain ⟨h1, h2⟩ := putRank_rank ext c ρ (rank (c.map ext) (c.map σ)) hn (rank_lt (val σ h))
    have := congrArg (unrank (c.map ext)) h1
    rw [unrank_rank (val _ h2), unrank_rank (val σ h)] at this
    exact List.map_inj_left.1 this k hk
  let A : Matrix (Fin N) (Fin N) K := fun J r => conj (W J (putRank ext ρ c r))
  let B : Matrix (Fin N) (Fin N) K := fun r J => W J (putRank ext ρ c r)
  have hAB : A * B = 1 := by
    ext J J'
    rw [Matrix.mul_apply, Matrix.one_apply]
    have := hiso J J.2 J' J'.2
    rw [sumOver_put _ hn, ← hN] at this
    rw [← Fin.sum_univ_eq_sum_range (fun v => conj (W J (putRank ext ρ c v)) * W J' (putRank ext ρ c v)) N] at this
    simp only [A, B]
    rw [this]
    simp only [Fin.ext_iff]
  have hBA : B * A = 1 := mul_eq_one_comm.1 hAB
  have h1 := rank_lt (val σ hσ)
  have h2 := rank_lt (val τ hτ)
  rw [← hN] at h1 h2
  have := congrFun (congrFun hBA ⟨_, h2⟩) ⟨_, h1⟩
  rw [Matrix.mul_apply, Matrix.one_apply] at this
  simp only [A, B, Fin.mk.injEq] at this
  have e : ∀ J, W J (putRank ext ρ c (rank (c.map ext) (c.map σ))) = W J σ ∧ W J (putRank ext ρ c (rank (c.map ext) (c.map τ))) = W J τ := fun J =>
    ⟨hdep J _ _ (put σ hσ), hdep J _ _ (put τ hτ)⟩
  simp only [(e _).1, (e _).2] at this
  rw [Fin.sum_univ_eq_sum_range (fun J => W J τ * conj (W J σ)) N] at this
  have hiff : (rank (c.map ext) (c.map τ) = rank (c.map ext) (c.map σ)) ↔ ∀ k ∈ c, σ k = τ k := by
    constructor
    · intro h
      have := congrArg (unrank (c.map ext)) h
      rw [unrank_rank (val τ hτ), unrank_rank (val σ hσ)] at this
      exact fun k hk => (List.map_inj_left.1 this k hk).symm
    · intro h
      rw [List.map_congr_left h]
  simp only [hiff] at this
  rw [← this]
  exact sum_congr rfl fun J _ => mul_comm _ _

end square

/-! ### Priming -/

/-- The name of an index after priming it. -/
def kp (n : Int) (k : Key) : Key := (k.1, k.2.1 + n, k.2.2)

theorem kp_key (n : Int) (i : Index) : (i.prime n).key = kp n i.key := rfl

theorem kp_kp (m n : Int) (k : Key) : kp m (kp n k) = kp (n + m) k := by simp [kp, add_assoc]

theorem kp_inj {n : Int} {k l : Key} (h : kp n k = kp n l) : k = l := by
  obtain ⟨k1, k2, k3⟩ := k
  obtain ⟨l1, l2, l3⟩ := l
  simp only [kp, Prod.mk.injEq] at h ⊢
  exact ⟨h.1, by omega, h.2.2⟩

/-- `prime(n,m)` primes the indices in `m`. -/
theorem prime_inds (n : Int) {is m : IndexSet} (hi : (keys is).Nodup) (hm : (keys m).Nodup) :
    prime n is (.inds m) = is.map fun i => if i.key ∈ keys m then i.prime n else i := by
  apply List.ext_getElem?
  intro j
  unfold prime modifyMatch
  rw [foldl_modify_nodup _ _ (positions_nodup hm), List.getElem?_map]
  by_cases hj : j < is.length
  · rw [List.getElem?_eq_getElem hj]
    have hpos : j ∈ indexPositions is m ↔ is[j].key ∈ keys m := by
      unfold indexPositions
      rw [List.mem_filterMap]
      constructor
      · rintro ⟨x, hx, e⟩
        obtain ⟨_, h1, _⟩ := findIdx?_first e
        rw [Index.eq_iff.1 h1]
        exact List.mem_map_of_mem hx
      · intro h
        obtain ⟨x, hx, e⟩ := List.mem_map.1 h
        refine ⟨x, hx, ?_⟩
        unfold indexPosition
        have : (is.findIdx? (·.eq x)).isSome := by
          rw [List.findIdx?_isSome, List.any_eq_true]
          exact ⟨is[j], List.getElem_mem hj, Index.eq_iff.2 e.symm⟩
        obtain ⟨k, hk⟩ := Option.isSome_iff_exists.1 this
        obtain ⟨q1, q2, _⟩ := findIdx?_first hk
        rw [hk, nodup_inj hi k j q1 hj ((Index.eq_iff.1 q2).trans e)]
    simp only [hpos, Option.map_some]
    split_ifs <;> rfl
  · rw [List.getElem?_eq_none (by omega)]
    simp

/-- The names after priming those in `m`. -/
def ren (n : Int) (m : List Key) (k : Key) : Key := if k ∈ m then kp n k else k

omit [DecidableEq K] in
/-- Priming renames. -/
theorem prime_ds {ext : Key → Nat} {t : DS K} (ht : t.OK ext) (n : Int) {m : IndexSet} (hm : (keys m).Nodup) (hnd : ((keys t.is).map (ren n (keys m))).Nodup)
    (he : ∀ k ∈ keys t.is, k ∈ keys m → ext (kp n k) = ext k) :
    (⟨prime n t.is (.inds m), t.size, t.mem⟩ : DS K).OK ext ∧ keys (prime n t.is (.inds m)) = (keys t.is).map (ren n (keys m)) ∧
      ∀ σ, (⟨prime n t.is (.inds m), t.size, t.mem⟩ : DS K).sem.val σ = t.sem.val fun k => σ (ren n (keys m) k) := by
  have e := prime_inds n ht.is.nodup hm
  have hk : keys (prime n t.is (.inds m)) = (keys t.is).map (ren n (keys m)) := by
    rw [e]
    unfold keys
    rw [List.map_map, List.map_map]
    refine List.map_congr_left fun i _ => ?_
    simp only [Function.comp, ren]
    split_ifs <;> rfl
  have hd : (prime n t.is (.inds m)).map (·.dim) = t.is.map (·.dim) := by
    rw [e, List.map_map]
    refine List.map_congr_left fun i _ => ?_
    simp only [Function.comp]
    split_ifs <;> rfl
  have hin : ∀ i ∈ prime n t.is (.inds m), ∃ j ∈ t.is, i.key = ren n (keys m) j.key ∧ i.dim = j.dim ∧ i.qns = j.qns := by
    intro i hi
    rw [e] at hi
    obtain ⟨j, hj, rfl⟩ := List.mem_map.1 hi
    refine ⟨j, hj, ?_⟩
    unfold ren
    split_ifs
    · exact ⟨rfl, rfl, rfl⟩
    · exact ⟨rfl, rfl, rfl⟩
  refine ⟨⟨⟨by rw [hk]; exact hnd, fun i hi => ?_, fun i hi => ?_, fun i hi => ?_⟩, ?_⟩, hk, fun σ => ?_⟩
  · obtain ⟨j, hj, h1, h2, h3⟩ := hin i hi
    rw [h2, ht.is.dims j hj, h1]
    unfold ren
    split_ifs with h
    · exact (he _ (List.mem_map_of_mem hj) h).symm
    · rfl
  · obtain ⟨j, hj, h1, h2, h3⟩ := hin i hi
    rw [h2]; exact ht.is.pos j hj
  · obtain ⟨j, hj, h1, h2, h3⟩ := hin i hi
    rw [h3]; exact ht.is.noqn j hj
  · rw [ht.size]
    exact congrArg List.prod hd.symm
  · simp only [DS.sem]
    rw [hd, vals_keys, hk, List.map_map]
    unfold keys
    rw [List.map_map]
    rfl

/-! ### What `polar` computes -/

/-- The values of the indices `b`, read from their primed copies. -/
def hat (p : Int) (b : List Key) (σ : Key → Nat) (k : Key) : Nat := if k ∈ b then σ (kp p k) else σ k

theorem taut1 {A B X : Prop} (d : A → ¬ B) (d1 : A → ¬ X) (d2 : B → ¬ X) : (A ∨ B) ↔ ((X ∨ A) ∧ ¬ (X ∨ B)) ∨ ((X ∨ B) ∧ ¬ (X ∨ A)) := by tauto

theorem taut2 {A B X : Prop} (d : A → ¬ B) (d1 : A → ¬ X) (d2 : B → ¬ X) : ((X ∨ A) ∧ (X ∨ B)) ↔ X := by tauto

theorem taut3 {A B C : Prop} (d : A → ¬ B) : ((A ∨ C) ∧ (C ∨ B)) ↔ C := by tauto

section polar
variable {ext : Key → Nat} {conj : K →+* K} {T : (Key → Nat) → K} {ku kv : Key} {a b : List Key} {U : DS K} {S : DG K} {V : DS K}

/-- No index of the tensor is the primed copy of an index of the second group, and priming does not change the dimension. -/
structure Fresh (ext : Key → Nat) (p : Int) (a b : List Key) : Prop where
  not : ∀ k ∈ b, kp p k ∉ a ∧ kp p k ∉ b
  ext : ∀ k ∈ b, ext (kp p k) = ext k

set_option maxHeartbeats 4000000 in
/-- The indices and elements of the two results. -/
theorem polar_core (h : IsSvd ext conj T ku kv a b U S V) {p : Int} (h1 : Fresh ext 1 a b) (hp : Fresh ext p a b) {M fuel : Nat} (hmax : (M : Int) ≤ offMax) (hfuel : M < fuel)
    (hU : ((ku :: a).map ext).prod ≤ M) (hV : ((kv :: b).map ext).prod ≤ M) (hS : ext ku * ext kv ≤ M) (hab : (a.map ext).prod * (b.map ext).prod ≤ M)
    (hbb : (b.map ext).prod * (b.map ext).prod ≤ M) (junk fresh : Int → K) :
    ∃ Q P : DS K, polar fuel junk fresh conj p U S V = some (.ok (.dense Q, .dense P)) ∧ Q.OK ext ∧ P.OK ext ∧ (keys Q.is).Perm (a ++ b.map (kp p)) ∧
      (keys P.is).Perm (b.map (kp p) ++ b) ∧
      (∀ σ, (∀ k ∈ a ++ b.map (kp p), σ k < ext k) → Q.sem.val σ = ∑ J ∈ range S.length, U.sem.val (update σ ku J) * V.sem.val (update (hat p b σ) kv J)) ∧
      ∀ σ, (∀ k ∈ b.map (kp p) ++ b, σ k < ext k) →
        P.sem.val σ = ∑ J ∈ range S.length, S.at' J * conj (V.sem.val (update (hat p b σ) kv J)) * V.sem.val (update σ kv J) := by
  obtain ⟨n1, n2, n3, n4, n5, n6, na, nb⟩ := h.names
  have okU := DS.sem_ok h.okU
  have okV := DS.sem_ok h.okV
  -- the two new indices
  obtain ⟨u, hu, ku', fu⟩ := common_one (X := S.is) (Y := U.is) h.okS.is.nodup (x := ku) fun k => by
    rw [h.memU, h.memS]
    constructor
    · rintro ⟨h1 | h1, h2 | h2⟩
      · exact h1
      · exact h1
      · exact h2
      · exact absurd (h1 ▸ h2) n4
    · rintro rfl; exact ⟨.inl rfl, .inl rfl⟩
  obtain ⟨v, hv, kv', fv⟩ := common_one (X := S.is) (Y := V.is) h.okS.is.nodup (x := kv) fun k => by
    rw [h.memV, h.memS]
    constructor
    · rintro ⟨h1 | h1, h2 | h2⟩
      · exact h2
      · exact absurd (h1 ▸ h2) n3
      · exact h1
      · exact h1
    · rintro rfl; exact ⟨.inr rfl, .inl rfl⟩
  have hpos : 0 < S.length := by
    have := h.okS.is.pos u hu
    rw [h.okS.is.dims u hu, ku', h.lenU] at this
    exact this
  -- the indices that are primed
  have hvis : (keys (uniqueInds V.is [v])).Perm b := by
    have hnd : (keys (uniqueInds V.is [v])).Nodup := h.okV.is.nodup.sublist (List.Sublist.map _ List.filter_sublist)
    rw [List.perm_ext_iff_of_nodup hnd nb]
    intro k
    rw [keys, List.mem_map]
    constructor
    · rintro ⟨i, hi, rfl⟩
      obtain ⟨h1, h2⟩ := List.mem_filter.1 hi
      rcases (h.memV i.key).1 (List.mem_map_of_mem h1) with h3 | h3
      · rw [hasIndex_eq] at h2
        simp [keys, kv', h3] at h2
      · exact h3
    · intro hk
      obtain ⟨i, hi, rfl⟩ := List.mem_map.1 ((h.memV k).2 (.inr hk))
      refine ⟨i, List.mem_filter.2 ⟨hi, ?_⟩, rfl⟩
      rw [hasIndex_eq]
      simp only [keys, List.map_cons, List.map_nil, List.mem_singleton, kv', Bool.not_eq_true', decide_eq_false_iff_not]
      exact fun e => n5 (e ▸ hk)
  have hren : ∀ (n : Int) (m : List Key), m.Perm b → ∀ k, ren n m k = ren n b k := by
    intro n m hm k
    unfold ren
    simp only [hm.mem_iff]
  have rkv : ∀ n, ren n b kv = kv := fun n => if_neg n5
  have rb : ∀ n, b.map (ren n b) = b.map (kp n) := fun n => List.map_congr_left fun k hk => if_pos hk
  have nbp : ∀ n, (b.map (kp n)).Nodup := fun n => nb.map fun _ _ => kp_inj
  have idb : ∀ n, ∀ k ∈ b.map (kp n), k ≠ ku ∧ k ≠ kv := by
    intro n k hk
    obtain ⟨l, hl, rfl⟩ := List.mem_map.1 hk
    have := h.new l (by simp [hl])
    exact ⟨fun e => this.1 (by rw [← e]; rfl), fun e => this.2 (by rw [← e]; rfl)⟩
  have extb : ∀ n, Fresh ext n a b → (b.map (kp n)).map ext = b.map ext := by
    intro n hn
    rw [List.map_map]
    exact List.map_congr_left fun k hk => hn.ext k hk
  -- `prime(V,Vis)`
  obtain ⟨p1, p2, p3⟩ := prime_ds h.okV 1 (m := uniqueInds V.is [v]) (hvis.nodup_iff.2 nb) (by
    rw [List.map_congr_left fun k _ => hren 1 _ hvis k, (h.indsV.map (ren 1 b)).nodup_iff, List.map_cons, rkv, rb]
    exact List.nodup_cons.2 ⟨fun hk => (idb 1 _ hk).2 rfl, nbp 1⟩) fun k _ hk => h1.ext k (hvis.mem_iff.1 hk)
  have p2' : (keys (prime 1 V.is (.inds (uniqueInds V.is [v])))).Perm (kv :: b.map (kp 1)) := by
    rw [p2, List.map_congr_left fun k _ => hren 1 _ hvis k]
    have := h.indsV.map (ren 1 b)
    rwa [List.map_cons, rkv, rb] at this
  have nebp : ∀ n, b.map (kp n) ≠ [] := fun n e => h.neb (List.map_eq_nil_iff.1 e)
  -- `Vp`
  obtain ⟨okδ, lenδ⟩ := delta_ok2 (K := K) (ext := ext) (i := v) (j := u) (n := S.length) (h.okS.is.dims v hv) (h.okS.is.dims u hu) (by rw [kv']; exact h.lenV) (by rw [ku']; exact h.lenU)
    hpos (h.okS.is.noqn v hv) (h.okS.is.noqn u hu) (by rw [kv', ku']; exact n1.symm)
  have bV' : ((kv :: b.map (kp 1)).map ext).prod ≤ M := by
    rw [List.map_cons, extb 1 h1]; exact hV
  obtain ⟨Vp, v1, v2, v3, v4⟩ := mul_diag_spec p1 okδ p2' (nebp 1) (x := kv) (y := ku) (fun k => by simp [keys, ku', kv']) n1.symm (fun hk => (idb 1 _ hk).1 rfl) (by rw [lenδ, h.lenV])
    (by rw [lenδ, h.lenU]) hmax hfuel bV' (by rw [mul_comm]; exact hS) junk fresh
  have bVp : ((ku :: b.map (kp 1)).map ext).prod ≤ M := by
    refine le_trans (le_of_eq ?_) bV'
    simp [h.lenU, h.lenV]
  -- the element of `Vp`
  have vVp : ∀ (σ : Key → Nat) (J : Nat), J < S.length → (∀ k ∈ b.map (kp 1), σ k < ext k) → Vp.sem.val (update σ ku J) = V.sem.val (update (hat 1 b σ) kv J) := by
    intro σ J hJ hσ
    rw [v4 _ (by
      intro k hk
      rcases List.mem_cons.1 hk with rfl | hk
      · rw [Function.update_self, h.lenU]; exact hJ
      · rw [Function.update_of_ne (idb 1 k hk).1]; exact hσ k hk), Function.update_self, delta_at, one_mul, p3]
    refine okV.dep _ _ fun k hk => ?_
    rw [hren 1 _ hvis]
    rcases (h.memV k).1 hk with rfl | hk
    · rw [rkv, Function.update_self, Function.update_self]
    · have e1 : kp 1 k ∈ b.map (kp 1) := List.mem_map_of_mem hk
      have e2 : k ≠ kv := fun e => n5 (e ▸ hk)
      rw [ren, if_pos hk, Function.update_of_ne (idb 1 _ e1).2, Function.update_of_ne (idb 1 _ e1).1, Function.update_of_ne e2, hat, if_pos hk]
  have memVp : ∀ k, k ∈ keys Vp.is ↔ k = ku ∨ k ∈ b.map (kp 1) := fun k => by rw [v3.mem_iff, List.mem_cons]
  have ndQ : ∀ n, Fresh ext n a b → (a ++ b.map (kp n)).Nodup := by
    intro n hn
    refine List.nodup_append.2 ⟨na, nbp n, fun k h1 l h2 e => ?_⟩
    obtain ⟨m, hm, rfl⟩ := List.mem_map.1 h2
    exact (hn.not m hm).1 (e ▸ h1)
  have ndP : ∀ n, Fresh ext n a b → (b.map (kp n) ++ b).Nodup := by
    intro n hn
    refine List.nodup_append.2 ⟨nbp n, nb, fun k h1 l h2 e => ?_⟩
    obtain ⟨m, hm, rfl⟩ := List.mem_map.1 h1
    exact (hn.not m hm).2 (e ▸ h2)
  -- `Q`
  obtain ⟨Q', q1, q2, q3, q4⟩ := mul_spec (L := .dense U) (R := .dense Vp) h.okU v2 (.inr (.inr trivial)) (a ++ b.map (kp 1)) (ndQ 1 h1) (by
    intro k
    change _ ↔ (k ∈ keys U.is ∧ k ∉ keys Vp.is) ∨ (k ∈ keys Vp.is ∧ k ∉ keys U.is)
    rw [h.memU, memVp, List.mem_append]
    have d : k ∈ a → k ∉ b.map (kp 1) := fun h2 h3 => (List.nodup_append.1 (ndQ 1 h1)).2.2 k h2 k h3 rfl
    have d1 : k ∈ a → k ≠ ku := fun h2 e => n2 (e ▸ h2)
    have d2 : k ∈ b.map (kp 1) → k ≠ ku := fun h2 => (idb 1 k h2).1
    exact taut1 d d1 d2) hmax hfuel (by change ((keys U.is).map ext).prod ≤ M; rw [(h.indsU.map ext).prod_eq]; exact hU)
    (by change ((keys Vp.is).map ext).prod ≤ M; rw [(v3.map ext).prod_eq]; exact bVp) (by rw [List.map_append, List.prod_append, extb 1 h1]; exact hab) junk fresh
  have hUne : U.is.length ≠ 0 := fun e => by
    have := h.indsU.length_eq
    rw [keys, List.length_map, e] at this
    simp at this
  have hVpne : Vp.is.length ≠ 0 := fun e => by
    have := v3.length_eq
    rw [keys, List.length_map, e] at this
    simp at this
  obtain ⟨Q0, rfl⟩ := IT.mulEq_dense hUne hVpne q1
  -- `dag(Vp)*S`
  have okdag : (⟨Vp.is, Vp.size, fun x => conj (Vp.mem x)⟩ : DS K).OK ext := ⟨v2.is, v2.size⟩
  obtain ⟨R, r1, r2, r3, r4⟩ := mul_diag_spec okdag h.okS v3 (nebp 1) (x := ku) (y := kv) (fun k => h.memS k) n1 (fun hk => (idb 1 _ hk).2 rfl) h.lenU h.lenV hmax hfuel bVp hS junk fresh
  have memR : ∀ k, k ∈ keys R.is ↔ k = kv ∨ k ∈ b.map (kp 1) := fun k => by rw [r3.mem_iff, List.mem_cons]
  have hRne : R.is.length ≠ 0 := fun e => by
    have := r3.length_eq
    rw [keys, List.length_map, e] at this
    simp at this
  have hVne : V.is.length ≠ 0 := fun e => by
    have := h.indsV.length_eq
    rw [keys, List.length_map, e] at this
    simp at this
  -- `P`
  have memPP : ∀ k, k ∈ b.map (kp 1) → k ∉ b := fun k h2 h3 => (List.nodup_append.1 (ndP 1 h1)).2.2 k h2 k h3 rfl
  obtain ⟨P', s1, s2, s3, s4⟩ := mul_spec (L := .dense R) (R := .dense V) r2 h.okV (.inr (.inr trivial)) (b.map (kp 1) ++ b) (ndP 1 h1) (by
    intro k
    change _ ↔ (k ∈ keys R.is ∧ k ∉ keys V.is) ∨ (k ∈ keys V.is ∧ k ∉ keys R.is)
    rw [h.memV, memR, List.mem_append]
    have d := memPP k
    have d1 : k ∈ b → k ≠ kv := fun h2 e => n5 (e ▸ h2)
    have d2 : k ∈ b.map (kp 1) → k ≠ kv := fun h2 => (idb 1 k h2).2
    exact taut1 d d2 d1) hmax hfuel (by change ((keys R.is).map ext).prod ≤ M; rw [(r3.map ext).prod_eq]; exact bV')
    (by change ((keys V.is).map ext).prod ≤ M; rw [(h.indsV.map ext).prod_eq]; exact hV) (by rw [List.map_append, List.prod_append, extb 1 h1]; exact hbb) junk fresh
  obtain ⟨P0, rfl⟩ := IT.mulEq_dense hRne hVne s1
  have q3 : (keys Q0.is).Perm (a ++ b.map (kp 1)) := q3
  have s3 : (keys P0.is).Perm (b.map (kp 1) ++ b) := s3
  -- the inner indices
  have hqis : (keys (commonInds Q0.is P0.is)).Perm (b.map (kp 1)) := by
    have hnd : (keys (commonInds Q0.is P0.is)).Nodup := q2.is.nodup.sublist (List.Sublist.map _ List.filter_sublist)
    rw [List.perm_ext_iff_of_nodup hnd (nbp 1)]
    intro k
    have e : k ∈ keys (commonInds Q0.is P0.is) ↔ k ∈ keys Q0.is ∧ k ∈ keys P0.is := by
      rw [keys, List.mem_map]
      constructor
      · rintro ⟨i, hi, rfl⟩
        obtain ⟨h1, h2⟩ := List.mem_filter.1 hi
        exact ⟨List.mem_map_of_mem h1, hasIndex_iff.1 h2⟩
      · rintro ⟨h1, h2⟩
        obtain ⟨i, hi, rfl⟩ := List.mem_map.1 h1
        exact ⟨i, List.mem_filter.2 ⟨hi, hasIndex_iff.2 h2⟩, rfl⟩
    rw [e, q3.mem_iff, s3.mem_iff, List.mem_append, List.mem_append]
    exact taut3 (n6 k)
  have renq : ∀ k, ren (p - 1) (keys (commonInds Q0.is P0.is)) k = ren (p - 1) (b.map (kp 1)) k := by
    intro k
    unfold ren
    simp only [hqis.mem_iff]
  have rp : (b.map (kp 1)).map (ren (p - 1) (b.map (kp 1))) = b.map (kp p) := by
    rw [List.map_map]
    refine List.map_congr_left fun k hk => ?_
    rw [Function.comp, ren, if_pos (List.mem_map_of_mem hk), kp_kp]
    congr 1; ring
  have rid : ∀ c : List Key, (∀ k ∈ c, k ∉ b.map (kp 1)) → c.map (ren (p - 1) (b.map (kp 1))) = c := by
    intro c hc
    conv_rhs => rw [← List.map_id c]
    exact List.map_congr_left fun k hk => if_neg (hc k hk)
  have aq : ∀ k ∈ a, k ∉ b.map (kp 1) := fun k h2 h3 => (List.nodup_append.1 (ndQ 1 h1)).2.2 k h2 k h3 rfl
  have bq : ∀ k ∈ b, k ∉ b.map (kp 1) := fun k h2 h3 => memPP k h3 h2
  have kQ : ((keys Q0.is).map (ren (p - 1) (keys (commonInds Q0.is P0.is)))).Perm (a ++ b.map (kp p)) := by
    rw [List.map_congr_left fun k _ => renq k]
    have := q3.map (ren (p - 1) (b.map (kp 1)))
    rwa [List.map_append, rp, rid a aq] at this
  have kP : ((keys P0.is).map (ren (p - 1) (keys (commonInds Q0.is P0.is)))).Perm (b.map (kp p) ++ b) := by
    rw [List.map_congr_left fun k _ => renq k]
    have := s3.map (ren (p - 1) (b.map (kp 1)))
    rwa [List.map_append, rp, rid b bq] at this
  have extq : ∀ k ∈ keys (commonInds Q0.is P0.is), ext (kp (p - 1) k) = ext k := by
    intro k hk
    obtain ⟨l, hl, rfl⟩ := List.mem_map.1 (hqis.mem_iff.1 hk)
    rw [kp_kp, h1.ext l hl, ← hp.ext l hl]
    congr 2; ring
  obtain ⟨x1, x2, x3⟩ := prime_ds q2 (p - 1) (hqis.nodup_iff.2 (nbp 1)) (kQ.nodup_iff.2 (ndQ p hp)) fun k _ hk => extq k hk
  obtain ⟨y1, y2, y3⟩ := prime_ds s2 (p - 1) (hqis.nodup_iff.2 (nbp 1)) (kP.nodup_iff.2 (ndP p hp)) fun k _ hk => extq k hk
  have hp0 : ¬ p - 1 = -1 := by
    intro e
    obtain ⟨z, hz⟩ := List.exists_mem_of_ne_nil b h.neb
    have e : p = 0 := by omega
    refine (hp.not z hz).2 ?_
    rw [e]
    simpa [kp] using hz
  refine ⟨_, _, ?_, x1, y1, by rw [x2]; exact kQ, by rw [y2]; exact kP, ?_, ?_⟩
  · unfold polar
    rw [fu, fv]
    change Run.bind ((IT.dense (⟨prime 1 V.is (.inds (uniqueInds V.is [v])), V.size, V.mem⟩ : DS K)).mulEq fuel junk fresh (.diag ⟨[v, u], [], 1, min v.dim u.dim⟩)) _ = _
    rw [v1]
    simp only [Run.bind]
    rw [q1]
    simp only [dagIT]
    rw [r1]
    dsimp only
    rw [s1]
    dsimp only
    rw [if_neg hp0]
    rfl
  -- the elements
  · intro σ hσ
    have bd : ∀ k ∈ a ++ b.map (kp 1), σ (ren (p - 1) (b.map (kp 1)) k) < ext k := by
      intro k hk
      rcases List.mem_append.1 hk with hk | hk
      · rw [ren, if_neg (aq k hk)]; exact hσ k (by simp [hk])
      · rw [ren, if_pos hk]
        obtain ⟨l, hl, rfl⟩ := List.mem_map.1 hk
        rw [kp_kp, h1.ext l hl, ← hp.ext l hl, add_sub_cancel]
        exact hσ _ (by simp only [List.mem_append]; exact .inr (List.mem_map_of_mem hl))
    rw [x3]
    simp only [renq]
    refine (q4 _ bd).trans ?_
    refine (mul_one_index (x := ku) h.okU.is.nodup (fun k => ?_) _).trans ?_
    · change k ∈ keys U.is ∧ k ∈ keys Vp.is ↔ _
      rw [h.memU, memVp]
      have d := aq k
      have d1 : k ∈ a → k ≠ ku := fun h2 e => n2 (e ▸ h2)
      have d2 : k ∈ b.map (kp 1) → k ≠ ku := fun h2 => (idb 1 k h2).1
      exact taut2 d d1 d2
    rw [h.lenU]
    refine sum_congr rfl fun J hJ => ?_
    have hJ := mem_range.1 hJ
    change U.sem.val _ * Vp.sem.val _ = _
    rw [vVp _ J hJ fun k hk => bd k (by simp only [List.mem_append]; exact .inr hk)]
    congr 1
    · refine okU.dep _ _ fun k hk => ?_
      rcases (h.memU k).1 hk with rfl | hk
      · simp
      · have e1 : k ≠ ku := fun e => n2 (e ▸ hk)
        rw [Function.update_of_ne e1, Function.update_of_ne e1, ren, if_neg (aq k hk)]
    · refine okV.dep _ _ fun k hk => ?_
      rcases (h.memV k).1 hk with rfl | hk
      · simp
      · have e1 : k ≠ kv := fun e => n5 (e ▸ hk)
        rw [Function.update_of_ne e1, Function.update_of_ne e1, hat, if_pos hk, hat, if_pos hk, ren, if_pos (List.mem_map_of_mem hk), kp_kp, add_sub_cancel]
  · intro σ hσ
    have bd : ∀ k ∈ b.map (kp 1) ++ b, σ (ren (p - 1) (b.map (kp 1)) k) < ext k := by
      intro k hk
      rcases List.mem_append.1 hk with hk | hk
      · rw [ren, if_pos hk]
        obtain ⟨l, hl, rfl⟩ := List.mem_map.1 hk
        rw [kp_kp, h1.ext l hl, ← hp.ext l hl, add_sub_cancel]
        exact hσ _ (by simp only [List.mem_append]; exact .inl (List.mem_map_of_mem hl))
      · rw [ren, if_neg (bq k hk)]; exact hσ k (by simp [hk])
    rw [y3]
    simp only [renq]
    refine (s4 _ bd).trans ?_
    refine (mul_one_index (x := kv) r2.is.nodup (fun k => ?_) _).trans ?_
    · change k ∈ keys R.is ∧ k ∈ keys V.is ↔ _
      rw [h.memV, memR]
      have d := memPP k
      have d1 : k ∈ b → k ≠ kv := fun h2 e => n5 (e ▸ h2)
      have d2 : k ∈ b.map (kp 1) → k ≠ kv := fun h2 => (idb 1 k h2).2
      exact taut2 d d2 d1
    rw [h.lenV]
    refine sum_congr rfl fun J hJ => ?_
    have hJ := mem_range.1 hJ
    change R.sem.val _ * V.sem.val _ = _
    have bd' : ∀ k ∈ b.map (kp 1), update (fun k => σ (ren (p - 1) (b.map (kp 1)) k)) kv J k < ext k := by
      intro k hk
      rw [Function.update_of_ne (idb 1 k hk).2]
      exact bd k (by simp only [List.mem_append]; exact .inl hk)
    rw [r4 _ (by
      intro k hk
      rcases List.mem_cons.1 hk with rfl | hk
      · rw [Function.update_self, h.lenV]; exact hJ
      · exact bd' k hk), Function.update_self]
    change S.at' J * conj (Vp.sem.val _) * _ = _
    rw [vVp _ J hJ bd']
    refine congrArg₂ _ (congrArg _ (congrArg _ ?_)) ?_
    · refine okV.dep _ _ fun k hk => ?_
      rcases (h.memV k).1 hk with rfl | hk
      · simp
      · have e1 : k ≠ kv := fun e => n5 (e ▸ hk)
        have e2 : kp 1 k ≠ kv := (idb 1 _ (List.mem_map_of_mem hk)).2
        rw [Function.update_of_ne e1, Function.update_of_ne e1, hat, if_pos hk, hat, if_pos hk, Function.update_of_ne e2, ren, if_pos (List.mem_map_of_mem hk), kp_kp, add_sub_cancel]
    · refine okV.dep _ _ fun k hk => ?_
      rcases (h.memV k).1 hk with rfl | hk
      · simp
      · have e1 : k ≠ kv := fun e => n5 (e ▸ hk)
        rw [Function.update_of_ne e1, Function.update_of_ne e1, ren, if_neg (bq k hk)]

omit [DecidableEq K] in
/-- The vectors of `V` are orthonormal in the primed indices too. -/
theorem hat_sum (h : IsSvd ext conj T ku kv a b U S V) {p : Int} (hp : Fresh ext p a b) {J J' : Nat} (hJ : J < S.length) (hJ' : J' < S.length) (ρ : Key → Nat) :
    sumOver ext (b.map (kp p)) (fun τ => conj (V.sem.val (update (hat p b τ) kv J)) * V.sem.val (update (hat p b τ) kv J')) ρ = if J = J' then 1 else 0 := by
  rw [← h.isoV J hJ J' hJ' fun k => ρ (kp p k)]
  refine sumOver_map (S := (· ∈ b)) (fun _ _ _ _ => kp_inj) (fun k hk => hp.ext k hk) ?_ b _ _ (fun _ hk => hk) fun _ _ => rfl
  intro σ' σ hs
  have e : ∀ J, V.sem.val (update (hat p b σ') kv J) = V.sem.val (update σ kv J) := by
    intro J
    refine (DS.sem_ok h.okV).dep _ _ fun k hk => ?_
    rcases (h.memV k).1 hk with rfl | hk
    · simp
    · have e1 : k ≠ kv := fun e => h.names.2.2.2.2.1 (e ▸ hk)
      rw [Function.update_of_ne e1, Function.update_of_ne e1, hat, if_pos hk, hs k hk]
  rw [e, e]

/-- Values of the indices `a` from `σ`, of the others from `τ`. -/
def glue (a : List Key) (σ τ : Key → Nat) (k : Key) : Nat := if k ∈ a then σ k else τ k

/-- **C104, polar.** `polar` returns `Q` with the first group of indices and primed copies of the second, and `P` with the primed copies and the second group. Their product is the tensor; `P` has the
eigenvalues `S` and eigenvectors `V` (so it is Hermitian, and non-negative as the singular values are); `Q` is an isometry if the new index is as large as the second group, and a co-isometry if it is as
large as the first. Partial: without quantum numbers, without the option `AddTags`, `svd` is given by what it returns, and no index of the tensor may be the primed copy of one of the second
group: see `C104_polar_counterexample`. -/
theorem C104_polar_partial (h : IsSvd ext conj T ku kv a b U S V) {p : Int} (h1 : Fresh ext 1 a b) (hp : Fresh ext p a b) {M fuel : Nat} (hmax : (M : Int) ≤ offMax) (hfuel : M < fuel)
    (hU : ((ku :: a).map ext).prod ≤ M) (hV : ((kv :: b).map ext).prod ≤ M) (hS : ext ku * ext kv ≤ M) (hab : (a.map ext).prod * (b.map ext).prod ≤ M)
    (hbb : (b.map ext).prod * (b.map ext).prod ≤ M) (junk fresh : Int → K) :
    ∃ Q P : IT K, polar fuel junk fresh conj p U S V = some (.ok (Q, P)) ∧ Q.OK ext ∧ P.OK ext ∧ (keys Q.is).Perm (a ++ b.map (kp p)) ∧
      (keys P.is).Perm (b.map (kp p) ++ b) ∧
      -- the product
      (∀ σ, (∀ k ∈ a ++ b, σ k < ext k) → (mul ext Q.sem P.sem).val σ = T σ) ∧
      -- `P`: eigenvalues and eigenvectors
      (∀ σ, (∀ k ∈ b.map (kp p) ++ b, σ k < ext k) →
        P.sem.val σ = ∑ J ∈ range S.length, S.at' J * conj (V.sem.val (update (hat p b σ) kv J)) * V.sem.val (update σ kv J)) ∧
      -- `P`: Hermitian
      ((∀ x, conj (conj x) = x) → (∀ J < S.length, conj (S.at' J) = S.at' J) → ∀ σ τ, (∀ k ∈ b.map (kp p) ++ b, σ k < ext k) → (∀ k ∈ b.map (kp p) ++ b, τ k < ext k) →
        (∀ k ∈ b, σ (kp p k) = τ k ∧ σ k = τ (kp p k)) → conj (P.sem.val σ) = P.sem.val τ) ∧
      -- `Q`: isometry
      (S.length = (b.map ext).prod → ∀ σ τ ρ, (∀ k ∈ b.map (kp p), σ k < ext k) → (∀ k ∈ b.map (kp p), τ k < ext k) →
        sumOver ext a (fun ρ => conj (Q.sem.val (glue a ρ σ)) * Q.sem.val (glue a ρ τ)) ρ = if ∀ k ∈ b, σ (kp p k) = τ (kp p k) then 1 else 0) ∧
      (S.length = (a.map ext).prod → ∀ σ τ ρ, (∀ k ∈ a, σ k < ext k) → (∀ k ∈ a, τ k < ext k) →
        sumOver ext (b.map (kp p)) (fun ρ => conj (Q.sem.val (glue a σ ρ)) * Q.sem.val (glue a τ ρ)) ρ = if ∀ k ∈ a, σ k = τ k then 1 else 0) := by
  obtain ⟨n1, n2, n3, n4, n5, n6, na, nb⟩ := h.names
  have okU := DS.sem_ok h.okU
  have okV := DS.sem_ok h.okV
  obtain ⟨Q, P, e1, e2, e3, e4, e5, e6, e7⟩ := polar_core h h1 hp hmax hfuel hU hV hS hab hbb junk fresh
  have nbp : (b.map (kp p)).Nodup := nb.map fun _ _ => kp_inj
  have ap : ∀ k ∈ a, k ∉ b.map (kp p) := by
    intro k h1 h2
    obtain ⟨l, hl, rfl⟩ := List.mem_map.1 h2
    exact (hp.not l hl).1 h1
  have bp : ∀ k ∈ b, k ∉ b.map (kp p) := by
    intro k h1 h2
    obtain ⟨l, hl, rfl⟩ := List.mem_map.1 h2
    exact (hp.not l hl).2 h1
  have idb : ∀ k ∈ b.map (kp p), k ≠ ku ∧ k ≠ kv := by
    intro k hk
    obtain ⟨l, hl, rfl⟩ := List.mem_map.1 hk
    have := h.new l (by simp [hl])
    exact ⟨fun e => this.1 (by rw [← e]; rfl), fun e => this.2 (by rw [← e]; rfl)⟩
  -- values of `U` and `V` depend on their own indices only
  have dU : ∀ (σ τ : Key → Nat) (J : Nat), (∀ k ∈ a, σ k = τ k) → U.sem.val (update σ ku J) = U.sem.val (update τ ku J) := by
    intro σ τ J hs
    refine okU.dep _ _ fun k hk => ?_
    rcases (h.memU k).1 hk with rfl | hk
    · simp
    · have e1 : k ≠ ku := fun e => n2 (e ▸ hk)
      rw [Function.update_of_ne e1, Function.update_of_ne e1, hs k hk]
  have dV : ∀ (σ τ : Key → Nat) (J : Nat), (∀ k ∈ b, σ k = τ k) → V.sem.val (update σ kv J) = V.sem.val (update τ kv J) := by
    intro σ τ J hs
    refine okV.dep _ _ fun k hk => ?_
    rcases (h.memV k).1 hk with rfl | hk
    · simp
    · have e1 : k ≠ kv := fun e => n5 (e ▸ hk)
      rw [Function.update_of_ne e1, Function.update_of_ne e1, hs k hk]
  refine ⟨.dense Q, .dense P, e1, e2, e3, e4, e5, fun σ hσ => ?_, e7, ?_, ?_, ?_⟩
  · have eK : (mul ext Q.sem P.sem).val σ = sumOver ext (b.map (kp p)) (fun τ => Q.sem.val τ * P.sem.val τ) σ := by
      unfold mul
      refine sumOver_perm ext ?_ (e2.is.nodup.filter _) (fun τ => Q.sem.val τ * P.sem.val τ) σ
      rw [List.perm_ext_iff_of_nodup (e2.is.nodup.filter _) nbp]
      intro k
      have : k ∈ keys Q.is ∧ k ∈ keys P.is ↔ k ∈ b.map (kp p) := by
        rw [e4.mem_iff, e5.mem_iff, List.mem_append, List.mem_append]
        exact taut3 (n6 k)
      simp only [List.mem_filter, decide_eq_true_eq]
      exact this
    refine eK.trans ?_
    rw [h.val σ hσ]
    have e : sumOver ext (b.map (kp p)) (fun τ => Q.sem.val τ * P.sem.val τ) σ =
        sumOver ext (b.map (kp p)) (fun τ => ∑ J ∈ range S.length, ∑ J' ∈ range S.length, U.sem.val (update σ ku J) * S.at' J' * V.sem.val (update σ kv J') *
          (conj (V.sem.val (update (hat p b τ) kv J')) * V.sem.val (update (hat p b τ) kv J))) σ := by
      refine sumOver_congr_bd ext _ _ fun τ h2 h3 => ?_
      have ta : ∀ k ∈ a, τ k = σ k := fun k hk => h2 k (ap k hk)
      have tb : ∀ k ∈ b, τ k = σ k := fun k hk => h2 k (bp k hk)
      rw [e6 τ (by
        intro k hk
        rcases List.mem_append.1 hk with hk | hk
        · rw [ta k hk]; exact hσ k (by simp [hk])
        · exact h3 k hk), e7 τ (by
        intro k hk
        rcases List.mem_append.1 hk with hk | hk
        · exact h3 k hk
        · rw [tb k hk]; exact hσ k (by simp [hk])), sum_mul_sum]
      refine sum_congr rfl fun J _ => sum_congr rfl fun J' _ => ?_
      rw [dU τ σ J ta, dV τ σ J' tb]
      ring
    rw [e, sumOver_sum]
    refine sum_congr rfl fun J hJ => ?_
    rw [sumOver_sum]
    have hJ := mem_range.1 hJ
    have e' : ∀ J' ∈ range S.length, sumOver ext (b.map (kp p)) (fun τ => U.sem.val (update σ ku J) * S.at' J' * V.sem.val (update σ kv J') *
          (conj (V.sem.val (update (hat p b τ) kv J')) * V.sem.val (update (hat p b τ) kv J))) σ =
        if J' = J then U.sem.val (update σ ku J) * S.at' J' * V.sem.val (update σ kv J') else 0 := by
      intro J' hJ'
      rw [sumOver_mul_left ext _ σ (G := fun _ => U.sem.val (update σ ku J) * S.at' J' * V.sem.val (update σ kv J')) fun _ _ _ => rfl, hat_sum h hp (mem_range.1 hJ') hJ]
      split_ifs <;> simp
    rw [sum_congr rfl e', sum_ite_eq' , if_pos (mem_range.2 hJ)]
  · intro hc hs σ τ hσ hτ hst
    change conj (P.sem.val σ) = P.sem.val τ
    rw [e7 σ hσ, e7 τ hτ, map_sum]
    refine sum_congr rfl fun J hJ => ?_
    rw [map_mul, map_mul, hc, hs J (mem_range.1 hJ), dV (hat p b σ) τ J fun k hk => by rw [hat, if_pos hk, (hst k hk).1],
      dV (hat p b τ) σ J fun k hk => by rw [hat, if_pos hk, (hst k hk).2]]
    ring
  · intro hN σ τ ρ hσ hτ
    change sumOver ext a (fun ρ => conj (Q.sem.val (glue a ρ σ)) * Q.sem.val (glue a ρ τ)) ρ = _
    have bd : ∀ (ρ σ : Key → Nat), (∀ k ∈ a, ρ k < ext k) → (∀ k ∈ b.map (kp p), σ k < ext k) → ∀ k ∈ a ++ b.map (kp p), glue a ρ σ k < ext k := by
      intro ρ σ h2 h3 k hk
      unfold glue
      split_ifs with hka
      · exact h2 k hka
      · exact h3 k ((List.mem_append.1 hk).resolve_left hka)
    have gV : ∀ (ρ σ : Key → Nat) (J : Nat), V.sem.val (update (hat p b (glue a ρ σ)) kv J) = V.sem.val (update (hat p b σ) kv J) := fun ρ σ J =>
      dV _ _ J fun k hk => by rw [hat, if_pos hk, hat, if_pos hk, glue, if_neg fun e => ap _ e (List.mem_map_of_mem hk)]
    have e : sumOver ext a (fun ρ => conj (Q.sem.val (glue a ρ σ)) * Q.sem.val (glue a ρ τ)) ρ =
        sumOver ext a (fun ρ => ∑ J ∈ range S.length, ∑ J' ∈ range S.length, conj (V.sem.val (update (hat p b σ) kv J)) * V.sem.val (update (hat p b τ) kv J') *
          (conj (U.sem.val (update ρ ku J)) * U.sem.val (update ρ ku J'))) ρ := by
      refine sumOver_congr_bd ext _ _ fun ρ' _ h3 => ?_
      rw [e6 _ (bd ρ' σ h3 hσ), e6 _ (bd ρ' τ h3 hτ), map_sum, sum_mul_sum]
      refine sum_congr rfl fun J _ => sum_congr rfl fun J' _ => ?_
      rw [gV, gV, dU (glue a ρ' σ) ρ' J fun k hk => if_pos hk, dU (glue a ρ' τ) ρ' J' fun k hk => if_pos hk, map_mul]
      ring
    rw [e, sumOver_sum]
    have e' : ∀ J ∈ range S.length, sumOver ext a (fun ρ => ∑ J' ∈ range S.length, conj (V.sem.val (update (hat p b σ) kv J)) * V.sem.val (update (hat p b τ) kv J') *
          (conj (U.sem.val (update ρ ku J)) * U.sem.val (update ρ ku J'))) ρ = conj (V.sem.val (update (hat p b σ) kv J)) * V.sem.val (update (hat p b τ) kv J) := by
      intro J hJ
      rw [sumOver_sum]
      have : ∀ J' ∈ range S.length, sumOver ext a (fun ρ => conj (V.sem.val (update (hat p b σ) kv J)) * V.sem.val (update (hat p b τ) kv J') *
          (conj (U.sem.val (update ρ ku J)) * U.sem.val (update ρ ku J'))) ρ = if J = J' then conj (V.sem.val (update (hat p b σ) kv J)) * V.sem.val (update (hat p b τ) kv J') else 0 := by
        intro J' hJ'
        rw [sumOver_mul_left ext a ρ (G := fun _ => conj (V.sem.val (update (hat p b σ) kv J)) * V.sem.val (update (hat p b τ) kv J')) fun _ _ _ => rfl,
          h.isoU J (mem_range.1 hJ) J' (mem_range.1 hJ')]
        split_ifs <;> simp
      rw [sum_congr rfl this, sum_ite_eq, if_pos hJ]
    rw [sum_congr rfl e']
    have bh : ∀ σ : Key → Nat, (∀ k ∈ b.map (kp p), σ k < ext k) → ∀ k ∈ b, hat p b σ k < ext k := by
      intro σ h2 k hk
      rw [hat, if_pos hk, ← hp.ext k hk]
      exact h2 _ (List.mem_map_of_mem hk)
    rw [square_complete (W := fun J σ => V.sem.val (update σ kv J)) nb (fun J σ τ hs => dV σ τ J hs) hN ρ (fun J hJ J' hJ' => h.isoV J hJ J' hJ' ρ) (bh σ hσ) (bh τ hτ)]
    have : (∀ k ∈ b, hat p b σ k = hat p b τ k) ↔ ∀ k ∈ b, σ (kp p k) = τ (kp p k) :=
      forall₂_congr fun k hk => by rw [hat, if_pos hk, hat, if_pos hk]
    simp only [this]
  · intro hN σ τ ρ hσ hτ
    change sumOver ext (b.map (kp p)) (fun ρ => conj (Q.sem.val (glue a σ ρ)) * Q.sem.val (glue a τ ρ)) ρ = _
    have bd : ∀ (σ ρ : Key → Nat), (∀ k ∈ a, σ k < ext k) → (∀ k ∈ b.map (kp p), ρ k < ext k) → ∀ k ∈ a ++ b.map (kp p), glue a σ ρ k < ext k := by
      intro σ ρ h2 h3 k hk
      unfold glue
      split_ifs with hka
      · exact h2 k hka
      · exact h3 k ((List.mem_append.1 hk).resolve_left hka)
    have gV : ∀ (σ ρ : Key → Nat) (J : Nat), V.sem.val (update (hat p b (glue a σ ρ)) kv J) = V.sem.val (update (hat p b ρ) kv J) := fun σ ρ J =>
      dV _ _ J fun k hk => by rw [hat, if_pos hk, hat, if_pos hk, glue, if_neg fun e => ap _ e (List.mem_map_of_mem hk)]
    have e : sumOver ext (b.map (kp p)) (fun ρ => conj (Q.sem.val (glue a σ ρ)) * Q.sem.val (glue a τ ρ)) ρ =
        sumOver ext (b.map (kp p)) (fun ρ => ∑ J ∈ range S.length, ∑ J' ∈ range S.length, conj (U.sem.val (update σ ku J)) * U.sem.val (update τ ku J') *
          (conj (V.sem.val (update (hat p b ρ) kv J)) * V.sem.val (update (hat p b ρ) kv J'))) ρ := by
      refine sumOver_congr_bd ext _ _ fun ρ' _ h3 => ?_
      rw [e6 _ (bd σ ρ' hσ h3), e6 _ (bd τ ρ' hτ h3), map_sum, sum_mul_sum]
      refine sum_congr rfl fun J _ => sum_congr rfl fun J' _ => ?_
      rw [gV, gV, dU (glue a σ ρ') σ J fun k hk => if_pos hk, dU (glue a τ ρ') τ J' fun k hk => if_pos hk, map_mul]
      ring
    rw [e, sumOver_sum]
    have e' : ∀ J ∈ range S.length, sumOver ext (b.map (kp p)) (fun ρ => ∑ J' ∈ range S.length, conj (U.sem.val (update σ ku J)) * U.sem.val (update τ ku J') *
          (conj (V.sem.val (update (hat p b ρ) kv J)) * V.sem.val (update (hat p b ρ) kv J'))) ρ = conj (U.sem.val (update σ ku J)) * U.sem.val (update τ ku J) := by
      intro J hJ
      rw [sumOver_sum]
      have : ∀ J' ∈ range S.length, sumOver ext (b.map (kp p)) (fun ρ => conj (U.sem.val (update σ ku J)) * U.sem.val (update τ ku J') *
          (conj (V.sem.val (update (hat p b ρ) kv J)) * V.sem.val (update (hat p b ρ) kv J'))) ρ = if J = J' then conj (U.sem.val (update σ ku J)) * U.sem.val (update τ ku J') else 0 := by
        intro J' hJ'
        rw [sumOver_mul_left ext _ ρ (G := fun _ => conj (U.sem.val (update σ ku J)) * U.sem.val (update τ ku J')) fun _ _ _ => rfl,
          hat_sum h hp (mem_range.1 hJ) (mem_range.1 hJ')]
        split_ifs <;> simp
      rw [sum_congr rfl this, sum_ite_eq, if_pos hJ]
    rw [sum_congr rfl e']
    exact square_complete (W := fun J σ => U.sem.val (update σ ku J)) na (fun J σ τ hs => dU σ τ J hs) hN ρ (fun J hJ J' hJ' => h.isoU J hJ J' hJ' ρ) hσ hτ

end polar

end Verif.Factor
