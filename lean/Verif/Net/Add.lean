import Verif.Net.DiagC28

/-!
# Sums of ITensors

Sources: `/repo/itensor/itensor.cc` (`daxpy`, `operator+=`, `operator-=`), `/repo/itensor/itdata/dense.cc` and
`/repo/itensor/itdata/diag.cc` (`PlusEQ`, `Mult`).

Elements are from a commutative ring (no difference between real and complex storage) and there are no quantum numbers:
`nnzblocks` is 1 (itensor.cc:293-297) and `checkSameDiv` and `checkArrows` do nothing. Block-sparse storage is in
`QDense/Add.lean`.
-/

namespace Verif.Net

open Verif.Tensor Verif.Tensor.Range Verif.Tensor.Permutation Verif.Index Verif.Index.IndexSet Finset

variable {K : Type*} [CommRing K] [DecidableEq K]

/-- `add(PlusEQ,Dense,Dense)` (dense.cc:371-393) with `daxpy_wrapper` written out. Storage shorter than what is read or written is
undefined behaviour. -/
def addDense (fuel : Nat) (P : Permutation) (alpha : K) (L R : DS K) : Run (DS K) :=
  if isTrivial P then
    if R.size < L.size then some .ub
    else some (.ok { L with mem := fun a => if 0 ≤ a ∧ a < L.size then L.mem a + alpha * R.mem a else L.mem a })
  else if R.size < (R.is.map (·.dim)).prod ∨ L.size < (L.is.map (·.dim)).prod then some .ub
  else match permuteRange (init (R.is.map (·.dim))) P with
    | .ok V => Run.bind (runTransform fuel (fun v2 v1 => v1 + alpha * v2) V (init (L.is.map (·.dim))) R.mem L.mem) fun m =>
        some (.ok { L with mem := m })
    | .throw => some .throw
    | .ub => some .ub

/-- `add(PlusEQ,Diag,Diag)` (diag.cc:218-241). -/
def addDiag (alpha : K) (L R : DG K) : Res (DG K) :=
  if L.store.isEmpty ∨ R.store.isEmpty then .throw
  else if R.store.length < L.store.length then .ub
  else .ok { L with store := L.store.zipWith (fun x y => x + alpha * y) R.store }

/-- `daxpy(L,R,alpha)` (itensor.cc:1206-1251). There is no `PlusEQ` for one dense and one diagonal storage, and
`doTask` reports an error. -/
def daxpyIT (fuel : Nat) (alpha : K) (L R : IT K) : Run (IT K) :=
  if L.is.length ≠ R.is.length then some .throw
  else match calcPerm (keys R.is) (keys L.is) with
    | .ok P => match L, R with
      | .dense l, .dense r => Run.bind (addDense fuel P alpha l r) fun n => some (.ok (.dense n))
      | .diag l, .diag r => some ((addDiag alpha l r).map IT.diag)
      | _, _ => some .throw
    | .throw => some .throw
    | .ub => some .ub

/-- `operator*=(Real)` (itensor.cc:1031-1037) with `Mult` (dense.cc:112-136, diag.cc:279-292). -/
def IT.scale (z : K) : IT K → IT K
  | .dense t => .dense { t with mem := fun a => t.mem a * z }
  | .diag d => .diag { d with store := d.store.map (· * z), val := d.val * z }

/-- `operator+=` (itensor.cc:1253-1264). `none` is a default constructed ITensor; `same` says that both operands are one object. -/
def plusEqIT (fuel : Nat) (same : Bool) (L R : Option (IT K)) : Run (Option (IT K)) :=
  match L, R with
  | none, R => some (.ok R)
  | some _, none => some .throw
  | some l, some r => if same then some (.ok (some (l.scale 2))) else Run.bind (daxpyIT fuel 1 l r) fun n => some (.ok (some n))

/-- `operator-=` (itensor.cc:1266-1279); `-R` is `R` times -1 (itensor.cc:1087-1092). -/
def minusEqIT (fuel : Nat) (same : Bool) (L R : Option (IT K)) : Run (Option (IT K)) :=
  match L, R with
  | none, R => some (.ok (R.map (IT.scale (-1))))
  | some _, none => some .throw
  | some l, some r => if same then some (.ok (some (l.scale 0))) else Run.bind (daxpyIT fuel (-1) l r) fun n => some (.ok (some n))

/-! ## Results -/

/-- Both have the same kind of storage, and a diagonal one keeps all its elements. -/
def Addable : IT K → IT K → Prop
  | .dense _, .dense _ => True
  | .diag l, .diag r => l.store ≠ [] ∧ r.store ≠ []
  | _, _ => False

omit [DecidableEq K] in
theorem dense_elt {ext : Key → Nat} {t : DS K} (ht : t.OK ext) {σ : Key → Nat} (hσ : ∀ i ∈ t.is, σ i.key < i.dim) :
    (IT.dense t).getElt (t.is.map fun i => σ i.key) = .ok (t.sem.val σ) := by
  simp only [IT.getElt, DS.getElt]
  rw [if_pos (by rw [ht.size]; exact rank_lt (valid_dims hσ))]
  rfl

theorem addDense_ok {ext : Key → Nat} {L R : DS K} (hL : L.OK ext) (hR : R.OK ext) (hk : (keys R.is).Perm (keys L.is))
    (alpha : K) (fuel : Nat) (hmax : (((L.is.map (·.dim)).prod : Nat) : Int) ≤ offMax) (hf : (L.is.map (·.dim)).prod < fuel)
    {P : Permutation} (hP : LabelPerm P (keys R.is) (keys L.is)) :
    ∃ m, addDense fuel P alpha L R = some (.ok { L with mem := m }) ∧
      ∀ σ : Key → Nat, (∀ k ∈ keys L.is, σ k < ext k) →
        m (rank (L.is.map (·.dim)) (L.is.map fun i => σ i.key) : Nat) = L.sem.val σ + alpha * R.sem.val σ := by
  have dim : ∀ {t : IndexSet}, IsOK ext t → t.map (·.dim) = (keys t).map ext := by
    intro t ht
    rw [keys, List.map_map]
    exact List.map_congr_left fun i hi => ht.dims i hi
  have val : ∀ (t : IndexSet) (σ : Key → Nat), (t.map fun i => σ i.key) = (keys t).map σ := by
    intro t σ; rw [keys, List.map_map]; rfl
  have hsz : R.size = L.size := by
    rw [hL.size, hR.size, dim hL.is, dim hR.is]
    exact (hk.map ext).prod_eq
  unfold addDense
  by_cases ht : isTrivial P = true
  · rw [if_pos ht, if_neg (by omega)]
    refine ⟨_, rfl, fun σ hσ => ?_⟩
    have hkk : keys R.is = keys L.is := by
      apply List.ext_getElem?
      intro n
      by_cases hn : n < P.length
      · have := (C16_isTrivial P).1 ht n hn
        exact (hP.2.2.2 n n (by rw [List.getElem?_eq_getElem hn, this])).symm
      · rw [List.getElem?_eq_none (by rw [← hP.2.1]; omega), List.getElem?_eq_none (by rw [← hP.2.2.1, ← hP.2.1]; omega)]
    have hlt := rank_lt (valid_dims (f := σ) (X := L.is) (fun i hi => by
      rw [hL.is.dims i hi]; exact hσ _ (List.mem_map_of_mem hi)))
    rw [← hL.size] at hlt
    rw [if_pos (by omega)]
    simp only [DS.sem]
    rw [dim hL.is, dim hR.is, val, val, hkk]
  · rw [if_neg ht, if_neg (by rw [← hL.size, ← hR.size]; omega)]
    obtain ⟨V, hV, m, hm, h1, _⟩ := runTransform_perm (fun v2 v1 : K => v1 + alpha * v2) ext hP
      (by
        intro k hk
        obtain ⟨i, hi, rfl⟩ := List.mem_map.1 hk
        rw [← hL.is.dims i hi]; exact hL.is.pos i hi)
      (by rw [← dim hL.is]; exact hmax) fuel (by rw [← dim hL.is]; exact hf) R.mem L.mem
    rw [dim hR.is, hV]
    simp only
    rw [dim hL.is, hm]
    refine ⟨m, rfl, fun σ hσ => ?_⟩
    rw [val, h1 σ hσ]
    simp only [DS.sem]
    rw [dim hL.is, dim hR.is, val, val]

/-- **C64.** `L += R` (`alpha` is 1) and `L -= R` (`alpha` is -1) for two different ITensors with the same indices in any two orders: the result has the
indices of `L` in their order, and each element is the sum of the elements of `L` and `alpha` times that of `R` for the same values of
the indices. Partial: sums of diagonal tensors with one value for all elements, and sums of a dense and a diagonal tensor, are
errors, see `C64_delta_counterexample`. -/
theorem C64_sum_partial {ext : Key → Nat} {L R : IT K} (hL : L.OK ext) (hR : R.OK ext) (hk : (keys R.is).Perm (keys L.is))
    (hA : Addable L R) (alpha : K) (fuel : Nat) (hmax : (((L.is.map (·.dim)).prod : Nat) : Int) ≤ offMax)
    (hf : (L.is.map (·.dim)).prod < fuel) :
    ∃ N, daxpyIT fuel alpha L R = some (.ok N) ∧ N.is = L.is ∧
      Holds ext N ⟨keys L.is, fun σ => L.sem.val σ + alpha * R.sem.val σ⟩ := by
  have hLn := hL.isOK.nodup
  have hRn := hR.isOK.nodup
  obtain ⟨P, hP, hp1, hp2, hp3⟩ := C16_calcPerm (keys R.is) (keys L.is) hk hRn
  have hlen : L.is.length = R.is.length := by
    have := hk.length_eq
    simpa [keys] using this.symm
  unfold daxpyIT
  rw [if_neg (by simpa using hlen), hP]
  cases L with
  | dense l =>
    cases R with
    | diag r => exact absurd hA (by simp [Addable])
    | dense r =>
      have hl : l.OK ext := hL
      have hr : r.OK ext := hR
      obtain ⟨m, hm, hv⟩ := addDense_ok hl hr hk alpha fuel hmax hf (P := P) ⟨hp1, hp2, hk.length_eq, hp3⟩
      simp only
      rw [hm]
      have hok : DS.OK ext { l with mem := m } := ⟨hl.is, hl.size⟩
      refine ⟨_, rfl, rfl, Holds.of hl.is.nodup hok hl.is (fun _ => Iff.rfl) fun σ hσ => ?_⟩
      refine (dense_elt hok hσ).trans (congrArg Res.ok ?_)
      refine hv σ fun k hk => ?_
      obtain ⟨i, hi, rfl⟩ := List.mem_map.1 hk
      rw [← hl.is.dims i hi]; exact hσ i hi
  | diag l =>
    cases R with
    | dense r => exact absurd hA (by simp [Addable])
    | diag r =>
      have hl : l.OK ext := hL
      have hr : r.OK ext := hR
      obtain ⟨n1, n2⟩ : l.store ≠ [] ∧ r.store ≠ [] := hA
      have len1 : l.store.length = l.length := hl.store.resolve_left n1
      have len2 : r.store.length = r.length := hr.store.resolve_left n2
      -- both diagonals are as long as the smallest index
      have mem : ∀ k, k ∈ keys r.is ↔ k ∈ keys l.is := fun k => hk.mem_iff
      have half : ∀ {a b : DG K}, a.OK ext → b.OK ext → (∀ k, k ∈ keys a.is ↔ k ∈ keys b.is) → a.length ≤ b.length := by
        intro a b ha hb hab
        rcases hb.min with ⟨h, e⟩ | ⟨i, hi, e⟩
        · rcases ha.min with ⟨_, e'⟩ | ⟨j, hj, _⟩
          · omega
          · have := (hab j.key).1 (List.mem_map_of_mem hj)
            rw [h] at this; simp [keys] at this
        · obtain ⟨j, hj, ej⟩ := List.mem_map.1 ((hab i.key).2 (List.mem_map_of_mem hi))
          have := ha.le j hj
          have ej : j.key = i.key := ej
          rw [ha.is.dims j hj, ej, ← hb.is.dims i hi, e] at this
          exact this
      have elen : r.length = l.length := le_antisymm (half hr hl mem) (half hl hr fun k => (mem k).symm)
      simp only [addDiag]
      rw [if_neg (by simp [n1, n2]), if_neg (by omega)]
      set N : DG K := { l with store := l.store.zipWith (fun x y => x + alpha * y) r.store } with hN
      have hNl : N.store.length = l.length := by simp [hN, len1, len2, elen]
      have hok : N.OK ext := ⟨hl.is, hl.le, hl.min, Or.inr hNl⟩
      have hh := C28_elements hok
      have hpos : 0 < l.length := by
        rw [← len1]; exact List.length_pos_iff.2 n1
      have he : N.sem.val = fun σ => l.sem.val σ + alpha * r.sem.val σ := by
        funext σ
        simp only [DG.sem]
        rw [elen, mul_sum, ← sum_add_distrib]
        refine sum_congr rfl fun J hJ => ?_
        have hJ : J < l.length := mem_range.1 hJ
        have hiff : (∀ k ∈ keys r.is, σ k = J) ↔ ∀ k ∈ keys l.is, σ k = J :=
          ⟨fun h k hk => h k ((mem k).2 hk), fun h k hk => h k ((mem k).1 hk)⟩
        simp only [hiff]
        change (if ∀ k ∈ keys l.is, σ k = J then N.at' J else 0) = _
        split
        · unfold DG.at'
          rw [if_neg (by rw [List.isEmpty_iff, ← List.length_eq_zero_iff]; omega), if_neg (by rwa [List.isEmpty_iff]),
            if_neg (by rwa [List.isEmpty_iff])]
          have j1 : J < l.store.length := by omega
          have j2 : J < r.store.length := by omega
          simp [hN, j1, j2]
        · simp
      refine ⟨.diag N, rfl, rfl, ?_⟩
      have : (⟨keys l.is, fun σ => l.sem.val σ + alpha * r.sem.val σ⟩ : Ten Key K) = N.sem := by
        rw [← he]; rfl
      change Holds ext (.diag N) ⟨keys l.is, fun σ => l.sem.val σ + alpha * r.sem.val σ⟩
      rw [this]
      exact hh

omit [DecidableEq K] in
/-- **C64.** Tensors with different indices are never added: an error is reported. -/
theorem C64_mismatch (L R : IT K) (alpha : K) (fuel : Nat) (hL : (keys L.is).Nodup)
    (h : ¬ (keys R.is).Perm (keys L.is)) : daxpyIT fuel alpha L R = some .throw := by
  unfold daxpyIT
  by_cases hlen : L.is.length = R.is.length
  · rw [if_neg (by simpa using hlen)]
    obtain ⟨x, hx, hn⟩ : ∃ x ∈ keys L.is, x ∉ keys R.is := by
      by_contra hc
      push Not at hc
      exact h ((List.subperm_of_subset hL hc).perm_of_length_le (by simp [keys, hlen])).symm
    rw [C16_calcPerm_throws _ _ x hx hn]
  · rw [if_pos (by simpa using hlen)]

theorem scale_holds {ext : Key → Nat} {T : IT K} (h : T.OK ext) (z : K) :
    Holds ext (T.scale z) ⟨keys T.is, fun σ => T.sem.val σ * z⟩ := by
  cases T with
  | dense t =>
    have ht : t.OK ext := h
    have hok : DS.OK ext { t with mem := fun a => t.mem a * z } := ⟨ht.is, ht.size⟩
    exact Holds.of ht.is.nodup hok ht.is (fun _ => Iff.rfl) fun σ hσ => dense_elt hok hσ
  | diag d =>
    have hd : d.OK ext := h
    set N : DG K := { d with store := d.store.map (· * z), val := d.val * z } with hN
    have hok : N.OK ext := ⟨hd.is, hd.le, hd.min, by
      rcases hd.store with e | e
      · left; simp [hN, e]
      · right; simp [hN, e]⟩
    have : (⟨keys (IT.diag d).is, fun σ => (IT.diag d).sem.val σ * z⟩ : Ten Key K) = N.sem := by
      simp only [DG.sem, IT.sem, IT.is, hN, sum_mul]
      congr 1
      funext σ
      refine sum_congr rfl fun J _ => ?_
      split
      · unfold DG.at'
        simp only [List.isEmpty_map]
        split
        · rfl
        · rw [List.getD_eq_getElem?_getD, List.getD_eq_getElem?_getD, List.getElem?_map]
          cases d.store[J]? <;> simp
      · simp
    rw [this]
    exact C28_elements hok

/-- **C64, operators.** `L += R` and `L -= R` for initialized operands, also when both are one object: the elements are added or
subtracted. -/
theorem C64_operators_partial {ext : Key → Nat} {L R : IT K} (hL : L.OK ext) (hR : R.OK ext) (hk : (keys R.is).Perm (keys L.is))
    (same : Bool) (hs : same = true → L = R) (hA : same = false → Addable L R) (fuel : Nat)
    (hmax : (((L.is.map (·.dim)).prod : Nat) : Int) ≤ offMax) (hf : (L.is.map (·.dim)).prod < fuel) :
    (∃ N, plusEqIT fuel same (some L) (some R) = some (.ok (some N)) ∧
      Holds ext N ⟨keys L.is, fun σ => L.sem.val σ + R.sem.val σ⟩) ∧
    ∃ N, minusEqIT fuel same (some L) (some R) = some (.ok (some N)) ∧
      Holds ext N ⟨keys L.is, fun σ => L.sem.val σ - R.sem.val σ⟩ := by
  cases same with
  | true =>
    cases hs rfl
    refine ⟨⟨_, rfl, ?_⟩, ⟨_, rfl, ?_⟩⟩
    · have := scale_holds hL (2 : K)
      simpa [mul_two] using this
    · have := scale_holds hL (0 : K)
      simpa using this
  | false =>
    constructor
    · obtain ⟨N, h1, _, h2⟩ := C64_sum_partial hL hR hk (hA rfl) 1 fuel hmax hf
      exact ⟨N, by simp [plusEqIT, h1, Run.bind], by simpa using h2⟩
    · obtain ⟨N, h1, _, h2⟩ := C64_sum_partial hL hR hk (hA rfl) (-1) fuel hmax hf
      exact ⟨N, by simp [minusEqIT, h1, Run.bind], by simpa [sub_eq_add_neg] using h2⟩

/-- **C64, uninitialized operands.** Adding to a default constructed ITensor gives the right operand (its negative for `-=`);
adding a default constructed ITensor to another is an error. -/
theorem C64_default {ext : Key → Nat} {R : IT K} (hR : R.OK ext) (fuel : Nat) (same : Bool) :
    plusEqIT fuel same none (some R) = some (.ok (some R)) ∧
    (∃ N, minusEqIT fuel same none (some R) = some (.ok (some N)) ∧ Holds ext N ⟨keys R.is, fun σ => - R.sem.val σ⟩) ∧
    plusEqIT fuel same (some R) none = some .throw ∧ minusEqIT fuel same (some R) none = some .throw := by
  refine ⟨rfl, ⟨_, rfl, ?_⟩, rfl, rfl⟩
  simpa using scale_holds hR (-1 : K)

/-! ## Cases -/

namespace AddEx

open DiagEx

/-- `T(l,s)` and `U(s,l)`. -/
def U : DS Int := ⟨[s, l], 6, fun a => 10 * a⟩

/-- All elements of a sum in memory order. -/
def cells : Run (IT Int) → Option (Res (List Nat × List Int))
  | some (.ok (.dense t)) => some (.ok (t.is.map (·.id), (List.range t.size).map fun (a : Nat) => t.mem a))
  | some (.ok (.diag t)) => some (.ok (t.is.map (·.id), t.store))
  | some .throw => some .throw
  | some .ub => some .ub
  | none => none

example : cells (daxpyIT 10 1 (.dense T) (.dense U)) = some (.ok ([1, 2], [1, 32, 13, 44, 25, 56])) := by decide +kernel
example : cells (daxpyIT 10 (-1) (.dense T) (.dense T)) = some (.ok ([1, 2], [0, 0, 0, 0, 0, 0])) := by decide +kernel
example : cells (daxpyIT 10 1 (.diag ⟨[s, l], [10, 20], 0, 2⟩) (.diag ⟨[l, s], [1, 2], 0, 2⟩)) = some (.ok ([2, 1], [11, 22])) := by
  decide +kernel
example : cells (daxpyIT 10 1 (.dense T) (.dense v)) = some .throw := by decide +kernel

/-- The hypotheses are met. -/
example : (IT.dense T).OK ext ∧ (IT.dense U).OK ext ∧ (keys (IT.dense U).is).Perm (keys (IT.dense T).is) ∧ Addable (IT.dense T) (IT.dense U) :=
  ⟨⟨⟨by decide +kernel, by decide +kernel, by decide, by decide⟩, rfl⟩,
    ⟨⟨by decide +kernel, by decide +kernel, by decide, by decide⟩, rfl⟩, by decide +kernel, trivial⟩

end AddEx

open DiagEx AddEx in
/-- The sum of a delta tensor and another diagonal tensor with the same indices, or of a dense and a diagonal one, is an error
although both have the same indices. -/
theorem C64_delta_counterexample :
    (∃ L R : IT Int, L.OK ext ∧ R.OK ext ∧ keys R.is = keys L.is ∧ cells (daxpyIT 10 1 L R) = some .throw ∧ L.is = [l, s] ∧
      ∃ d, L = .diag d) ∧
    ∃ R : IT Int, (IT.dense T).OK ext ∧ R.OK ext ∧ keys R.is = keys (IT.dense T).is ∧ cells (daxpyIT 10 1 (.dense T) R) = some .throw := by
  have hi : IsOK ext [l, s] := ⟨by decide +kernel, by decide +kernel, by decide, by decide⟩
  have hle : ∀ i ∈ [l, s], 2 ≤ i.dim := by decide
  have h : ∀ z : Int, (⟨[l, s], [], z, 2⟩ : DG Int).OK ext := fun z =>
    ⟨hi, hle, Or.inr ⟨l, List.mem_cons_self, rfl⟩, Or.inl rfl⟩
  exact ⟨⟨.diag ⟨[l, s], [], 1, 2⟩, .diag ⟨[l, s], [], 3, 2⟩, h 1, h 3, rfl, by decide +kernel, rfl, _, rfl⟩,
    ⟨.diag ⟨[l, s], [], 1, 2⟩, ⟨⟨by decide +kernel, by decide +kernel, by decide, by decide⟩, rfl⟩, h 1, rfl, by decide +kernel⟩⟩

end Verif.Net
