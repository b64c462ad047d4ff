import Verif.Decomp.Factor
import Verif.MPS.TraceC102
import Verif.Net.DirectSumC98

/-!
# C104: `factor` and `polar`
-/

namespace Verif.Factor

open Verif.Tensor Verif.Index Verif.Index.IndexSet Verif.Net Finset
open Function (update)

variable {K : Type*} [CommRing K] [DecidableEq K]

/-- What `svd` returns for a tensor `T` with indices `a` and `b`: `U` with `a` and the new index `ku`, `V` with `b` and the new index `kv`, the diagonal `S` between the two; `T = U*S*V`, `U` and `V`
are orthogonal. (If the singular values are truncated, `T` is what is left of the tensor.) -/
structure IsSvd (ext : Key → Nat) (conj : K →+* K) (T : (Key → Nat) → K) (ku kv : Key) (a b : List Key) (U : DS K) (S : DG K) (V : DS K) : Prop where
  okU : U.OK ext
  okS : S.OK ext
  okV : V.OK ext
  indsU : (keys U.is).Perm (ku :: a)
  indsS : keys S.is = [ku, kv]
  indsV : (keys V.is).Perm (kv :: b)
  nea : a ≠ []
  neb : b ≠ []
  nodup : (a ++ b).Nodup
  ne : ku.1 ≠ kv.1
  new : ∀ k ∈ a ++ b, k.1 ≠ ku.1 ∧ k.1 ≠ kv.1
  lenU : ext ku = S.length
  lenV : ext kv = S.length
  val : ∀ σ, (∀ k ∈ a ++ b, σ k < ext k) → T σ = ∑ J ∈ range S.length, U.sem.val (update σ ku J) * S.at' J * V.sem.val (update σ kv J)
  isoU : ∀ J < S.length, ∀ J' < S.length, ∀ σ, sumOver ext a (fun τ => conj (U.sem.val (update τ ku J)) * U.sem.val (update τ ku J')) σ = if J = J' then 1 else 0
  isoV : ∀ J < S.length, ∀ J' < S.length, ∀ σ, sumOver ext b (fun τ => conj (V.sem.val (update τ kv J)) * V.sem.val (update τ kv J')) σ = if J = J' then 1 else 0

/-- A product with the indices `n`. -/
theorem mul_spec {ext : Key → Nat} {L R : IT K} (hL : L.OK ext) (hR : R.OK ext) (hM : Multiplicable L R) (n : List Key) (hnd : n.Nodup)
    (hn : ∀ k, k ∈ n ↔ (k ∈ keys L.is ∧ k ∉ keys R.is) ∨ (k ∈ keys R.is ∧ k ∉ keys L.is)) {M fuel : Nat} (hmax : (M : Int) ≤ offMax) (hfuel : M < fuel)
    (hl : ((keys L.is).map ext).prod ≤ M) (hr : ((keys R.is).map ext).prod ≤ M) (hn' : (n.map ext).prod ≤ M) (junk fresh : Int → K) :
    ∃ N, L.mulEq fuel junk fresh R = some (.ok N) ∧ N.OK ext ∧ (keys N.is).Perm n ∧
      ∀ σ, (∀ k ∈ n, σ k < ext k) → N.sem.val σ = (mul ext L.sem R.sem).val σ := by
  have hp : (mul ext L.sem R.sem).inds.Perm n := by
    rw [List.perm_ext_iff_of_nodup (mul_ok ext (IT.sem_ok hL) (IT.sem_ok hR)).nodup hnd]
    intro k
    rw [Net.mul_mem, IT.inds_sem, IT.inds_sem, hn]
  have e : ((mul ext L.sem R.sem).inds.map ext).prod = (n.map ext).prod := (hp.map ext).prod_eq
  obtain ⟨N, h1, h2⟩ := C28_operator_partial hL hR hM fuel (by omega) (by omega) (by omega) (by omega) (by omega) (by omega) junk fresh
  refine ⟨N, h1, h2.ok, h2.inds.trans hp, fun σ hσ => ?_⟩
  exact MPS.holds_val h2 fun k hk => hσ k ((h2.inds.trans hp).mem_iff.1 hk)

omit [DecidableEq K] in
/-- The product with a diagonal matrix. -/
theorem mul_diag2 {ext : Key → Nat} {d : DG K} (hd : d.OK ext) {T : Ten Key K} (hT : T.OK) {x y : Key} (hk : ∀ k, k ∈ keys d.is ↔ k = x ∨ k = y) (hx : x ∈ T.inds)
    (hy : y ∉ T.inds) {σ : Key → Nat} (hσ : σ y < d.length) : (mul ext T d.sem).val σ = d.at' (σ y) * T.val (update σ x (σ y)) := by
  rw [mul_diag_right hd hT, prodVal']
  have e : ∀ J, (∀ k ∈ keys d.is, k ∉ T.inds → σ k = J) ↔ σ y = J := by
    intro J
    constructor
    · intro h; exact h y ((hk y).2 (.inr rfl)) hy
    · intro h k h1 h2
      rcases (hk k).1 h1 with rfl | rfl
      · exact absurd hx h2
      · exact h
  simp only [e, Finset.sum_ite_eq, Finset.mem_range, hσ, if_true]
  congr 1
  refine hT.dep _ _ fun k hkT => ?_
  have hky : k ≠ y := fun e => hy (e ▸ hkT)
  simp only [hk, hky, or_false, Function.update_apply]

omit [DecidableEq K] in
/-- The product of two tensors with one index in common. -/
theorem mul_one_index {ext : Key → Nat} {A B : Ten Key K} (hA : A.inds.Nodup) {x : Key} (hx : ∀ k, k ∈ A.inds ∧ k ∈ B.inds ↔ k = x) (σ : Key → Nat) :
    (mul ext A B).val σ = ∑ J ∈ range (ext x), A.val (update σ x J) * B.val (update σ x J) := by
  unfold mul
  refine (sumOver_perm ext (cs' := [x]) ?_ (hA.filter _) (fun τ => A.val τ * B.val τ) σ).trans rfl
  rw [List.perm_ext_iff_of_nodup (hA.filter _) (by simp)]
  intro k
  simp only [List.mem_filter, decide_eq_true_eq, hx, List.mem_singleton]

omit [CommRing K] [DecidableEq K] in
theorem apply_ok {ext : Key → Nat} {d : DG K} (h : d.OK ext) (f : K → K) : (applyDG f d).OK ext := by
  refine ⟨h.is, h.le, h.min, ?_⟩
  rcases h.store with h' | h'
  · exact .inl (by simp [applyDG, h'])
  · exact .inr (by simpa [applyDG] using h')

omit [DecidableEq K] in
theorem apply_at {ext : Key → Nat} {d : DG K} (h : d.OK ext) (f : K → K) {J : Nat} (hJ : J < d.length) : (applyDG f d).at' J = f (d.at' J) := by
  unfold applyDG DG.at'
  rcases h.store with h' | h'
  · simp [h']
  · have hJ' : J < d.store.length := by omega
    have hs : ¬ d.store.isEmpty = true := by
      intro e
      rw [List.isEmpty_iff] at e
      simp [e] at hJ'
    have hs' : ¬ (d.store.map f).isEmpty = true := by simpa using hs
    dsimp only
    rw [if_neg hs, if_neg hs']
    simp [hJ']

omit [CommRing K] [DecidableEq K] in
theorem findIndex_one {is : IndexSet} {i : Index} (h : is = [i]) : MPS.findIndex is = .ok i := by rw [h]; rfl

omit [CommRing K] [DecidableEq K] in
/-- The index that two tensors have in common. -/
theorem common_one {X Y : IndexSet} (hX : (keys X).Nodup) {x : Key} (hx : ∀ k, k ∈ keys X ∧ k ∈ keys Y ↔ k = x) :
    ∃ i ∈ X, i.key = x ∧ MPS.findIndex (commonInds X Y) = .ok i := by
  have hk : ∀ k, k ∈ keys (commonInds X Y) ↔ k = x := by
    intro k
    rw [← hx, keys, List.mem_map]
    constructor
    · rintro ⟨i, hi, rfl⟩
      obtain ⟨h1, h2⟩ := List.mem_filter.1 hi
      exact ⟨List.mem_map_of_mem h1, hasIndex_iff.1 h2⟩
    · rintro ⟨h1, h2⟩
      obtain ⟨i, hi, rfl⟩ := List.mem_map.1 h1
      exact ⟨i, List.mem_filter.2 ⟨hi, hasIndex_iff.2 h2⟩, rfl⟩
  have hnd : (keys (commonInds X Y)).Nodup := hX.sublist (List.Sublist.map _ List.filter_sublist)
  have h1 : keys (commonInds X Y) = [x] := MPS.keys_one hnd hk
  rw [keys, List.map_eq_singleton_iff] at h1
  obtain ⟨i, hi, rfl⟩ := h1
  refine ⟨i, ?_, rfl, findIndex_one hi⟩
  have : i ∈ commonInds X Y := by rw [hi]; simp
  exact (List.mem_filter.1 this).1

omit [DecidableEq K] in
theorem delta_at (i j : Index) (J : Nat) : (⟨[i, j], [], 1, min i.dim j.dim⟩ : DG K).at' J = 1 := rfl

section basics
variable {ext : Key → Nat} {conj : K →+* K} {T : (Key → Nat) → K} {ku kv : Key} {a b : List Key} {U : DS K} {S : DG K} {V : DS K}

omit [DecidableEq K] in
theorem IsSvd.memU (h : IsSvd ext conj T ku kv a b U S V) (k : Key) : k ∈ keys U.is ↔ k = ku ∨ k ∈ a := by
  rw [h.indsU.mem_iff, List.mem_cons]

omit [DecidableEq K] in
theorem IsSvd.memV (h : IsSvd ext conj T ku kv a b U S V) (k : Key) : k ∈ keys V.is ↔ k = kv ∨ k ∈ b := by
  rw [h.indsV.mem_iff, List.mem_cons]

omit [DecidableEq K] in
theorem IsSvd.memS (h : IsSvd ext conj T ku kv a b U S V) (k : Key) : k ∈ keys S.is ↔ k = ku ∨ k = kv := by
  rw [h.indsS]; simp

omit [DecidableEq K] in
theorem IsSvd.names (h : IsSvd ext conj T ku kv a b U S V) : ku ≠ kv ∧ ku ∉ a ∧ ku ∉ b ∧ kv ∉ a ∧ kv ∉ b ∧ (∀ k ∈ a, k ∉ b) ∧ a.Nodup ∧ b.Nodup := by
  have hn := List.nodup_append.1 h.nodup
  refine ⟨fun e => h.ne (by rw [e]), fun m => (h.new ku (by simp [m])).1 rfl, fun m => (h.new ku (by simp [m])).1 rfl,
    fun m => (h.new kv (by simp [m])).2 rfl, fun m => (h.new kv (by simp [m])).2 rfl, fun k h1 h2 => hn.2.2 k h1 k h2 rfl, hn.1, hn.2.1⟩

omit [DecidableEq K] in
/-- `delta(x,y)` for two indices of the same dimension. -/
theorem delta_ok2 {i j : Index} {n : Nat} (hi : i.dim = ext i.key) (hj : j.dim = ext j.key) (hin : ext i.key = n) (hjn : ext j.key = n) (h0 : 0 < n) (hq : i.qns = []) (hq' : j.qns = [])
    (hne : i.key ≠ j.key) : (⟨[i, j], [], 1, min i.dim j.dim⟩ : DG K).OK ext ∧ (⟨[i, j], [], 1, min i.dim j.dim⟩ : DG K).length = n :=
  ⟨delta_ok hi hj (by omega) (by omega) hq hq' hne, by show min i.dim j.dim = n; omega⟩

/-- A tensor with the indices `x`, `c` times a diagonal matrix from `x` to `y`: dense, with the indices `y`, `c`. -/
theorem mul_diag_spec {t : DS K} (ht : t.OK ext) {d : DG K} (hd : d.OK ext) {x y : Key} {c : List Key} (hp : (keys t.is).Perm (x :: c)) (hc : c ≠ []) (hk : ∀ k, k ∈ keys d.is ↔ k = x ∨ k = y)
    (hxy : x ≠ y) (hy : y ∉ c) (hx : ext x = d.length) (hy' : ext y = d.length) {M fuel : Nat} (hmax : (M : Int) ≤ offMax) (hfuel : M < fuel)
    (h1 : ((x :: c).map ext).prod ≤ M) (h2 : ext x * ext y ≤ M) (junk fresh : Int → K) :
    ∃ n : DS K, (IT.dense t).mulEq fuel junk fresh (.diag d) = some (.ok (.dense n)) ∧ n.OK ext ∧ (keys n.is).Perm (y :: c) ∧
      ∀ σ, (∀ k ∈ y :: c, σ k < ext k) → n.sem.val σ = d.at' (σ y) * t.sem.val (update σ x (σ y)) := by
  have hndt : (x :: c).Nodup := hp.nodup_iff.1 ht.is.nodup
  have hxc : x ∉ c := (List.nodup_cons.1 hndt).1
  have hnd : (y :: c).Nodup := List.nodup_cons.2 ⟨hy, (List.nodup_cons.1 hndt).2⟩
  have memt : ∀ k, k ∈ keys t.is ↔ k = x ∨ k ∈ c := fun k => by rw [hp.mem_iff, List.mem_cons]
  obtain ⟨z, hz⟩ := List.exists_mem_of_ne_nil c hc
  have hzt : z ∈ keys t.is := (memt z).2 (.inr hz)
  have hzd : z ∉ keys d.is := by
    rw [hk]
    rintro (rfl | rfl)
    · exact hxc hz
    · exact hy hz
  have hpd : (keys d.is).Perm [x, y] := by
    rw [List.perm_ext_iff_of_nodup hd.is.nodup (by simpa using hxy)]
    intro k; rw [hk]; simp
  obtain ⟨N, e1, e2, e3, e4⟩ := mul_spec (L := .dense t) (R := .diag d) ht hd (.inr (.inr fun h => absurd (h z hzt) hzd)) (y :: c) hnd (by
    intro k
    change _ ↔ (k ∈ keys t.is ∧ k ∉ keys d.is) ∨ (k ∈ keys d.is ∧ k ∉ keys t.is)
    rw [memt, hk, List.mem_cons]
    constructor
    · rintro (rfl | h)
      · exact .inr ⟨.inr rfl, by rintro (h | h); exacts [hxy h.symm, hy h]⟩
      · exact .inl ⟨.inr h, by rintro (rfl | rfl); exacts [hxc h, hy h]⟩
    · rintro (⟨h | h, h'⟩ | ⟨h | h, h'⟩)
      · exact absurd (.inl h) h'
      · exact .inr h
      · exact absurd (.inl h) h'
      · exact .inl h) hmax hfuel (by change ((keys t.is).map ext).prod ≤ M; rw [(hp.map ext).prod_eq]; exact h1)
    (by change ((keys d.is).map ext).prod ≤ M; rw [(hpd.map ext).prod_eq]; simpa using h2) (by
      refine le_trans (le_of_eq ?_) h1
      simp [hx, hy']) junk fresh
  have hne : t.is.length ≠ 0 := by
    intro h; rw [List.eq_nil_of_length_eq_zero h] at hzt; simp [keys] at hzt
  have hned : d.is.length ≠ 0 := by
    intro h
    have := (hk x).2 (.inl rfl)
    rw [List.eq_nil_of_length_eq_zero h] at this; simp [keys] at this
  have hden : ∃ n, N = .dense n := by
    have e1' := e1
    unfold IT.mulEq at e1'
    rw [if_neg (show ¬ (IT.dense t).is.length = 0 from hne), if_neg (show ¬ (IT.diag d).is.length = 0 from hned)] at e1'
    exact (mulDenseDiag_dense ht.is.nodup hd.is.nodup hzt hzd).1 e1'
  obtain ⟨n, rfl⟩ := hden
  refine ⟨n, e1, e2, e3, fun σ hσ => ?_⟩
  refine (e4 σ hσ).trans (mul_diag2 hd (DS.sem_ok ht) hk ((memt x).2 (.inl rfl)) ?_ ?_)
  · exact fun h => by rcases (memt y).1 h with h | h; exacts [hxy h.symm, hy h]
  · rw [← hy']; exact hσ y (by simp)

/-! ### `factor` -/

/-- **C104, factor.** `factor` returns tensors `A` and `B` with one new index in common; their product is the tensor, and `A†A = BB† = D`: the singular values are shared evenly.
`f` is the square root. Partial: without quantum numbers, and `svd` is given by what it returns. -/
theorem C104_factor_partial (h : IsSvd ext conj T ku kv a b U S V) {f : K → K} (hf : ∀ J < S.length, f (S.at' J) * f (S.at' J) = S.at' J)
    (hfc : ∀ J < S.length, conj (f (S.at' J)) = f (S.at' J)) {M fuel : Nat} (hmax : (M : Int) ≤ offMax) (hfuel : M < fuel) (hU : ((ku :: a).map ext).prod ≤ M)
    (hV : ((kv :: b).map ext).prod ≤ M) (hS : ext ku * ext kv ≤ M) (junk fresh : Int → K) :
    ∃ A B : IT K, factor fuel junk fresh f U S V = some (.ok (A, B)) ∧ A.OK ext ∧ B.OK ext ∧ (keys A.is).Perm (ku :: a) ∧ (keys B.is).Perm (ku :: b) ∧
      (∀ σ, (∀ k ∈ a ++ b, σ k < ext k) → (mul ext A.sem B.sem).val σ = T σ) ∧
      (∀ J < S.length, ∀ J' < S.length, ∀ σ, (∀ k ∈ a, σ k < ext k) →
        sumOver ext a (fun τ => conj (A.sem.val (update τ ku J)) * A.sem.val (update τ ku J')) σ = if J = J' then S.at' J else 0) ∧
      ∀ J < S.length, ∀ J' < S.length, ∀ σ, (∀ k ∈ b, σ k < ext k) →
        sumOver ext b (fun τ => conj (B.sem.val (update τ ku J)) * B.sem.val (update τ ku J')) σ = if J = J' then S.at' J else 0 := by
  obtain ⟨n1, n2, n3, n4, n5, n6, na, nb⟩ := h.names
  have okD := apply_ok h.okS f
  obtain ⟨dl, hdl, kdl, fdl⟩ := common_one (Y := S.is) h.okU.is.nodup (x := ku) fun k => by
    rw [h.memU, h.memS]
    constructor
    · rintro ⟨h1 | h1, h2 | h2⟩
      · exact h1
      · exact h1
      · exact h2
      · exact absurd (h2 ▸ h1) n4
    · rintro rfl; exact ⟨.inl rfl, .inl rfl⟩
  obtain ⟨dr, hdr, kdr, fdr⟩ := common_one (Y := S.is) h.okV.is.nodup (x := kv) fun k => by
    rw [h.memV, h.memS]
    constructor
    · rintro ⟨h1 | h1, h2 | h2⟩
      · exact h1
      · exact h1
      · exact absurd (h2 ▸ h1) n3
      · exact h2
    · rintro rfl; exact ⟨.inl rfl, .inr rfl⟩
  have hpos : 0 < S.length := by
    have := h.okU.is.pos dl hdl
    rw [h.okU.is.dims dl hdl, kdl, h.lenU] at this
    exact this
  obtain ⟨A1, a1, a2, a3, a4⟩ := mul_diag_spec h.okU okD h.indsU h.nea (fun k => h.memS k) n1 n4 h.lenU h.lenV hmax hfuel hU hS junk fresh
  obtain ⟨B1, b1, b2, b3, b4⟩ := mul_diag_spec h.okV okD h.indsV h.neb (fun k => (h.memS k).trans or_comm) n1.symm n3 h.lenV h.lenU hmax hfuel hV (by rw [mul_comm]; exact hS) junk fresh
  obtain ⟨okδ, lenδ⟩ := delta_ok2 (K := K) (ext := ext) (i := dl) (j := dr) (n := S.length) (h.okU.is.dims dl hdl) (h.okV.is.dims dr hdr) (by rw [kdl]; exact h.lenU) (by rw [kdr]; exact h.lenV)
    hpos (h.okU.is.noqn dl hdl) (h.okV.is.noqn dr hdr) (by rw [kdl, kdr]; exact n1)
  have hUV : ((kv :: a).map ext).prod ≤ M := by
    refine le_trans (le_of_eq ?_) hU
    simp [h.lenU, h.lenV]
  obtain ⟨A2, c1, c2, c3, c4⟩ := mul_diag_spec a2 okδ a3 h.nea (x := kv) (y := ku) (fun k => by simp [keys, kdl, kdr, or_comm]) n1.symm n2 (by rw [lenδ, h.lenV]) (by rw [lenδ, h.lenU]) hmax hfuel
    hUV (by rw [mul_comm]; exact hS) junk fresh
  refine ⟨.dense A2, .dense B1, ?_, c2, b2, c3, b3, ?_⟩
  · unfold factor
    rw [fdl, fdr]
    simp only [a1, b1, Run.bind]
    change Run.bind ((IT.dense A1).mulEq fuel junk fresh (.diag ⟨[dl, dr], [], 1, min dl.dim dr.dim⟩)) _ = _
    rw [c1]; rfl
  have okU := DS.sem_ok h.okU
  have okV := DS.sem_ok h.okV
  have hA : ∀ (σ : Key → Nat) (J : Nat), J < S.length → (∀ k ∈ a, σ k < ext k) → A2.sem.val (update σ ku J) = f (S.at' J) * U.sem.val (update σ ku J) := by
    intro σ J hJ hσ
    have bd : ∀ (τ : Key → Nat) (x : Key), ext x = S.length → x ∉ a → (∀ k ∈ a, τ k < ext k) → ∀ k ∈ x :: a, update τ x J k < ext k := by
      intro τ x hx hxa hτ k hk
      rcases List.mem_cons.1 hk with rfl | hk
      · rw [Function.update_self, hx]; exact hJ
      · rw [Function.update_of_ne (fun e : k = x => hxa (e ▸ hk))]; exact hτ k hk
    rw [c4 _ (bd σ ku h.lenU n2 hσ), Function.update_self, delta_at, one_mul, a4 _ (bd _ kv h.lenV n4 fun k hk => by rw [Function.update_of_ne (fun e : k = ku => n2 (e ▸ hk))]; exact hσ k hk),
      Function.update_self, apply_at h.okS f hJ]
    congr 1
    refine okU.dep _ _ fun k hk => ?_
    rcases (h.memU k).1 hk with rfl | hk
    · simp
    · have e1 : k ≠ ku := fun e => n2 (e ▸ hk)
      have e2 : k ≠ kv := fun e => n4 (e ▸ hk)
      simp [Function.update_of_ne, e1, e2]
  have hB : ∀ (σ : Key → Nat) (J : Nat), J < S.length → (∀ k ∈ b, σ k < ext k) → B1.sem.val (update σ ku J) = f (S.at' J) * V.sem.val (update σ kv J) := by
    intro σ J hJ hσ
    rw [b4 _ (by
      intro k hk
      rcases List.mem_cons.1 hk with rfl | hk
      · rw [Function.update_self, h.lenU]; exact hJ
      · rw [Function.update_of_ne (fun e : k = ku => n3 (e ▸ hk))]; exact hσ k hk), Function.update_self, apply_at h.okS f hJ]
    congr 1
    refine okV.dep _ _ fun k hk => ?_
    rcases (h.memV k).1 hk with rfl | hk
    · simp
    · have e1 : k ≠ ku := fun e => n3 (e ▸ hk)
      have e2 : k ≠ kv := fun e => n5 (e ▸ hk)
      simp [Function.update_of_ne, e1, e2]
  have iso : ∀ (c : List Key) (W Z : (Key → Nat) → K) (x : Key),
      (∀ σ J, J < S.length → (∀ k ∈ c, σ k < ext k) → W (update σ ku J) = f (S.at' J) * Z (update σ x J)) →
      (∀ J < S.length, ∀ J' < S.length, ∀ σ, sumOver ext c (fun τ => conj (Z (update τ x J)) * Z (update τ x J')) σ = if J = J' then 1 else 0) →
      ∀ J < S.length, ∀ J' < S.length, ∀ σ, (∀ k ∈ c, σ k < ext k) →
        sumOver ext c (fun τ => conj (W (update τ ku J)) * W (update τ ku J')) σ = if J = J' then S.at' J else 0 := by
    intro c W Z x h1 h2 J hJ J' hJ' σ hσ
    have e : sumOver ext c (fun τ => conj (W (update τ ku J)) * W (update τ ku J')) σ =
        sumOver ext c (fun τ => (f (S.at' J) * f (S.at' J')) * (conj (Z (update τ x J)) * Z (update τ x J'))) σ := by
      refine sumOver_congr_bd ext _ _ fun τ h3 h4 => ?_
      rw [h1 τ J hJ h4, h1 τ J' hJ' h4, map_mul, hfc J hJ]
      ring
    rw [e, sumOver_mul_left ext c σ fun _ _ _ => rfl, h2 J hJ J' hJ']
    split_ifs with hJJ
    · rw [← hJJ, hf J hJ, mul_one]
    · rw [mul_zero]
  refine ⟨fun σ hσ => ?_, iso a A2.sem.val U.sem.val ku hA h.isoU, iso b B1.sem.val V.sem.val kv hB h.isoV⟩
  have hA2 : (IT.dense A2 : IT K).sem.inds = keys A2.is := rfl
  have hB1 : (IT.dense B1 : IT K).sem.inds = keys B1.is := rfl
  rw [mul_one_index (x := ku) (by rw [hA2]; exact c2.is.nodup) (by
    intro k
    rw [hA2, hB1, c3.mem_iff, b3.mem_iff, List.mem_cons, List.mem_cons]
    constructor
    · rintro ⟨h1 | h1, h2 | h2⟩
      · exact h1
      · exact h1
      · exact h2
      · exact absurd h2 (n6 k h1)
    · rintro rfl; exact ⟨.inl rfl, .inl rfl⟩), h.val σ hσ, h.lenU]
  refine sum_congr rfl fun J hJ => ?_
  have hJ := mem_range.1 hJ
  change A2.sem.val _ * B1.sem.val _ = _
  rw [hA σ J hJ fun k hk => hσ k (by simp [hk]), hB σ J hJ fun k hk => hσ k (by simp [hk])]
  calc _ = U.sem.val (update σ ku J) * (f (S.at' J) * f (S.at' J)) * V.sem.val (update σ kv J) := by ring
    _ = _ := by rw [hf J hJ]

end basics

end Verif.Factor
