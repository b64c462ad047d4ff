import Verif.Net.Add

/-!
# Products of ITensors with dense and diagonal storage

Source: `/repo/itensor/itensor.cc` (`operator*=`), with the tasks of `Net/ITensor.lean` and `Net/Diag.lean`.
-/

namespace Verif.Net

open Verif.Tensor Verif.Tensor.Range Verif.Index Verif.Index.IndexSet Finset

variable {K : Type*} [CommRing K] [DecidableEq K]

/-- `ITensor::operator*=(ITensor)` (itensor.cc:935-978) for operands without quantum numbers; there is no `Contract` for
two diagonal storages, and `doTask` reports an error. -/
def IT.mulEq (fuel : Nat) (junk fresh : Int → K) (L R : IT K) : Run (IT K) :=
  if L.is.length = 0 then some ((L.getElt []).map fun z => R.scale z)
  else if R.is.length = 0 then some ((R.getElt []).map fun z => L.scale z)
  else match L, R with
    | .dense a, .dense b => Run.bind (DTensor.contractDense fuel junk fresh ⟨a.is, a.mem⟩ ⟨b.is, b.mem⟩) fun n =>
        some (.ok (.dense ⟨n.is, (n.is.map (·.dim)).prod, n.store⟩))
    | .dense a, .diag d => mulDenseDiag fuel a d
    | .diag d, .dense b => mulDiagDense fuel d b
    | .diag _, .diag _ => some .throw

/-- The products for which the code gives the right result: not of two diagonal tensors (with indices), and not the case of
`C28_short_counterexample`. -/
def Multiplicable (L R : IT K) : Prop :=
  L.is = [] ∨ R.is = [] ∨ match L, R with
    | .dense _, .dense _ => True
    | .dense a, .diag d => DiagRest d a
    | .diag d, .dense b => DiagRest d b
    | .diag _, .diag _ => False

omit [DecidableEq K] in
theorem IT.inds_sem (T : IT K) : T.sem.inds = keys T.is := by cases T <;> rfl

omit [DecidableEq K] in
theorem IT.sem_ok {ext : Key → Nat} {T : IT K} (h : T.OK ext) : T.sem.OK := by
  cases T with
  | dense t => exact DS.sem_ok (ext := ext) h
  | diag d => exact DG.sem_ok (ext := ext) h

/-- An ITensor holds what it means. -/
theorem IT.holds_sem {ext : Key → Nat} {T : IT K} (h : T.OK ext) : Holds ext T T.sem := by
  cases T with
  | dense t =>
    have ht : t.OK ext := h
    exact Holds.of ht.is.nodup ht ht.is (fun _ => Iff.rfl) fun σ hσ => dense_elt ht hσ
  | diag d => exact C28_elements h

theorem IT.dims {ext : Key → Nat} {T : IT K} (h : T.OK ext) : T.is.map (·.dim) = (keys T.is).map ext := by
  rw [keys, List.map_map]
  exact List.map_congr_left fun i hi => h.isOK.dims i hi

/-- **C28, C60.** `L *= R` for any combination of dense and diagonal storage: the result holds the product of what `L` and `R` hold.
Partial: see `Multiplicable`. -/
theorem C28_operator_partial {ext : Key → Nat} {L R : IT K} (hL : L.OK ext) (hR : R.OK ext) (hM : Multiplicable L R)
    (fuel : Nat) (hml : (((keys L.is).map ext).prod : Int) ≤ offMax) (hmr : (((keys R.is).map ext).prod : Int) ≤ offMax)
    (hmn : (((mul ext L.sem R.sem).inds.map ext).prod : Int) ≤ offMax)
    (hfl : ((keys L.is).map ext).prod < fuel) (hfr : ((keys R.is).map ext).prod < fuel)
    (hfn : ((mul ext L.sem R.sem).inds.map ext).prod < fuel) (junk fresh : Int → K) :
    ∃ N, L.mulEq fuel junk fresh R = some (.ok N) ∧ Holds ext N (mul ext L.sem R.sem) := by
  have elt : ∀ {T : IT K}, T.OK ext → T.is = [] → ∀ σ, T.getElt [] = .ok (T.sem.val σ) := by
    intro T hT h0 σ
    have := (IT.holds_sem hT).elt σ (by rw [IT.inds_sem, h0]; simp [keys])
    rwa [h0] at this
  have const : ∀ {T : IT K}, T.OK ext → T.is = [] → ∀ σ τ, T.sem.val σ = T.sem.val τ := by
    intro T hT h0 σ τ
    exact Res.ok.inj ((elt hT h0 σ).symm.trans (elt hT h0 τ))
  unfold IT.mulEq
  by_cases hl0 : L.is.length = 0
  · rw [if_pos hl0]
    have hl : L.is = [] := List.eq_nil_of_length_eq_zero hl0
    rw [elt hL hl fun _ => 0]
    refine ⟨_, rfl, ?_⟩
    have h := scale_holds hR (L.sem.val fun _ => 0)
    have e : (⟨keys R.is, fun σ => R.sem.val σ * L.sem.val fun _ => 0⟩ : Ten Key K) = mul ext L.sem R.sem := by
      simp only [mul, IT.inds_sem, hl]
      simp only [keys, List.map_nil, List.filter_nil, List.nil_append, List.not_mem_nil, not_false_eq_true, decide_true,
        List.filter_true, sumOver]
      congr 1
      funext σ
      rw [mul_comm, const hL hl (fun _ => 0) σ]
    rw [← e]; exact h
  rw [if_neg hl0]
  by_cases hr0 : R.is.length = 0
  · rw [if_pos hr0]
    have hr : R.is = [] := List.eq_nil_of_length_eq_zero hr0
    rw [elt hR hr fun _ => 0]
    refine ⟨_, rfl, ?_⟩
    have h := scale_holds hL (R.sem.val fun _ => 0)
    have e : (⟨keys L.is, fun σ => L.sem.val σ * R.sem.val fun _ => 0⟩ : Ten Key K) = mul ext L.sem R.sem := by
      simp only [mul, IT.inds_sem, hr]
      simp only [keys, List.map_nil, List.filter_nil, List.append_nil, List.not_mem_nil, not_false_eq_true, decide_true,
        List.filter_true, decide_false, List.filter_false, sumOver]
      congr 1
      funext σ
      rw [const hR hr (fun _ => 0) σ]
    rw [← e]; exact h
  rw [if_neg hr0]
  have hM' := (hM.resolve_left fun h => hl0 (by simp [h])).resolve_left fun h => hr0 (by simp [h])
  have dl := IT.dims hL
  have dr := IT.dims hR
  rcases L with a | a <;> rcases R with b | b
  · have ha : a.OK ext := hL
    have hb : b.OK ext := hR
    have okA : (⟨a.is, a.mem⟩ : DTensor K).OK ext := ⟨ha.is.nodup, ha.is.dims, ha.is.pos, ha.is.noqn⟩
    have okB : (⟨b.is, b.mem⟩ : DTensor K).OK ext := ⟨hb.is.nodup, hb.is.dims, hb.is.pos, hb.is.noqn⟩
    have dl : a.is.map (·.dim) = (keys a.is).map ext := dl
    have dr : b.is.map (·.dim) = (keys b.is).map ext := dr
    obtain ⟨N, h1, h2, h3, _⟩ := C60_product okA okB (by change (((a.is.map (·.dim)).prod : Nat) : Int) ≤ _; rw [dl]; exact hml)
      (by change (((b.is.map (·.dim)).prod : Nat) : Int) ≤ _; rw [dr]; exact hmr) hmn fuel
      (by change (a.is.map (·.dim)).prod < _; rw [dl]; exact hfl) (by change (b.is.map (·.dim)).prod < _; rw [dr]; exact hfr) hfn
      junk fresh
    unfold DTensor.mulEq at h1
    rw [if_neg (by exact hl0), if_neg (by exact hr0)] at h1
    simp only [h1, Run.bind]
    have hN : (IT.dense (⟨N.is, (N.is.map (·.dim)).prod, N.store⟩ : DS K)).OK ext := ⟨⟨h2.nodup, h2.dims, h2.pos, h2.noqn⟩, rfl⟩
    refine ⟨_, rfl, ⟨hN, by rw [← IT.inds_sem]; exact List.Perm.of_eq h3.1, fun σ hσ => ?_⟩⟩
    have hσ' : ∀ k ∈ N.sem.inds, σ k < ext k := by rw [h3.1]; exact hσ
    refine ((IT.holds_sem hN).elt σ hσ').trans (congrArg Res.ok ?_)
    exact h3.2 σ hσ'
  · exact C28_dense_diag_partial hR hL hM' fuel (by rw [show a.is.map (·.dim) = (keys a.is).map ext from dl]; exact hfl)
  · exact C28_diag_dense_partial hL hR hM' fuel (by rw [show b.is.map (·.dim) = (keys b.is).map ext from dr]; exact hfr)
  · exact absurd hM' (by simp)

/-- When an index of the dense operand remains, the result is dense. -/
theorem mulDenseDiag_dense {fuel : Nat} {t : DS K} {d : DG K} (hn : (keys t.is).Nodup) (hd : (keys d.is).Nodup) {k : Key}
    (h1 : k ∈ keys t.is) (h2 : k ∉ keys d.is) {N : IT K} :
    (mulDenseDiag fuel t d = some (.ok N) → ∃ n, N = .dense n) ∧ (mulDiagDense fuel d t = some (.ok N) → ∃ n, N = .dense n) := by
  have key : ∀ {dl tl : List Int} {X : List (Index × Int)}, tl.any (· ≥ 0) = true →
      contractDiagDense fuel d dl t tl X = some (.ok N) → ∃ n, N = .dense n := by
    intro dl tl X ht h
    unfold contractDiagDense at h
    simp only [ht, if_true] at h
    generalize contractDiagPartial (K := K) _ _ _ _ _ _ _ _ _ _ _ _ = r at h
    rcases r with _ | _ | _ | _
    · simp [Run.bind] at h
    · simp only [Run.bind, Option.some.injEq, Res.ok.injEq] at h
      exact ⟨_, h.symm⟩
    · simp [Run.bind] at h
    · simp [Run.bind] at h
  constructor
  · intro h
    obtain ⟨lab, hA, hB, hinj, hs⟩ := exists_lab t.is d.is hn hd
    unfold mulDenseDiag at h
    simp only at h
    split at h
    · simp only [Option.some.injEq, Res.ok.injEq] at h
      exact ⟨_, h.symm⟩
    · refine key ?_ h
      rw [hA, List.any_eq_true]
      refine ⟨lab k, List.mem_map_of_mem h1, ?_⟩
      have := (hs k (Or.inl h1)).2
      simp only [decide_eq_true_eq, ge_iff_le, ← not_lt]
      rw [this]; tauto
  · intro h
    obtain ⟨lab, hA, hB, hinj, hs⟩ := exists_lab d.is t.is hd hn
    unfold mulDiagDense at h
    simp only at h
    split at h
    · simp only [Option.some.injEq, Res.ok.injEq] at h
      exact ⟨_, h.symm⟩
    · refine key ?_ h
      rw [hB, List.any_eq_true]
      refine ⟨lab k, List.mem_map_of_mem h1, ?_⟩
      have := (hs k (Or.inr h1)).2
      simp only [decide_eq_true_eq, ge_iff_le, ← not_lt]
      rw [this]; tauto

/-! ## The indices of a product come from the operands -/

theorem contractIS_mem {L R : IndexSet} {ll rl : List Int} {p : Index × Int} (hL : ∀ i ∈ L, i.qns = []) (hR : ∀ i ∈ R, i.qns = [])
    (h : p ∈ contractIS L R ll rl) : p.1 ∈ L ∨ p.1 ∈ R := by
  simp only [contractIS, hasQNs_false hL, hasQNs_false hR, Bool.false_and, Bool.and_false, Bool.false_eq_true, if_false,
    List.mem_append, List.mem_map, List.mem_filter] at h
  rcases h with ⟨a, ⟨h, _⟩, rfl⟩ | ⟨a, ⟨h, _⟩, rfl⟩
  · exact Or.inl (List.of_mem_zip h).1
  · exact Or.inr (List.of_mem_zip h).1

theorem replaceIndex_mem {L R : IndexSet} {ll rl : List Int} {i : Index} (h : i ∈ replaceIndex L ll R rl) : i ∈ L ∨ i ∈ R := by
  simp only [replaceIndex, List.mem_map] at h
  obtain ⟨a, h, rfl⟩ := h
  have ha := (List.of_mem_zip h).1
  have key : ∀ n, R.getD n a.1 ∈ L ∨ R.getD n a.1 ∈ R := by
    intro n
    by_cases hn : n < R.length
    · exact Or.inr (by simp [hn])
    · exact Or.inl (by simpa [Nat.le_of_not_lt hn] using ha)
  split
  · split
    · exact key 0
    · exact key 1
  · exact Or.inl ha

theorem contractDiagDense_is {fuel : Nat} {d : DG K} {dl : List Int} {t : DS K} {tl : List Int} {X : List (Index × Int)} {N : IT K}
    (h : contractDiagDense fuel d dl t tl X = some (.ok N)) : N.is = X.map (·.1) := by
  unfold contractDiagDense at h
  simp only at h
  split at h
  · generalize contractDiagPartial (K := K) _ _ _ _ _ _ _ _ _ _ _ _ = r at h
    rcases r with _ | _ | _ | _ <;> simp [Run.bind] at h
    subst h; rfl
  · generalize contractDiagFull (K := K) _ _ _ _ _ _ _ _ _ = r at h
    rcases r with _ | _ | _ <;> simp [Res.map] at h
    subst h
    split
    · rfl
    · split <;> rfl

/-- No index of a product is new. -/
theorem IT.mulEq_mem {fuel : Nat} {junk fresh : Int → K} {L R N : IT K} (hL : ∀ i ∈ L.is, i.qns = []) (hR : ∀ i ∈ R.is, i.qns = [])
    (h : L.mulEq fuel junk fresh R = some (.ok N)) : ∀ i ∈ N.is, i ∈ L.is ∨ i ∈ R.is := by
  unfold IT.mulEq at h
  split at h
  · generalize L.getElt [] = r at h
    rcases r with _ | _ | _ <;> simp [Res.map] at h
    subst h
    intro i hi
    right
    cases R <;> exact hi
  · split at h
    · generalize R.getElt [] = r at h
      rcases r with _ | _ | _ <;> simp [Res.map] at h
      subst h
      intro i hi
      left
      cases L <;> exact hi
    · rcases L with a | a <;> rcases R with b | b
      · simp only [DTensor.contractDense] at h
        generalize contract (K := K) _ _ _ _ _ _ _ _ _ _ _ _ _ = r at h
        rcases r with _ | _ | _ | _ <;> simp [Run.bind] at h
        subst h
        intro i hi
        obtain ⟨p, hp, rfl⟩ := List.mem_map.1 (show i ∈ (contractIS _ _ _ _).map (·.1) from by simpa [IT.is] using hi)
        exact contractIS_mem hL hR hp
      · simp only [mulDenseDiag] at h
        split at h
        · simp at h
          subst h
          intro i hi
          exact replaceIndex_mem hi
        · intro i hi
          rw [contractDiagDense_is h] at hi
          obtain ⟨p, hp, rfl⟩ := List.mem_map.1 hi
          exact contractIS_mem hL hR hp
      · simp only [mulDiagDense] at h
        split at h
        · simp at h
          subst h
          intro i hi
          exact (replaceIndex_mem hi).symm
        · intro i hi
          rw [contractDiagDense_is h] at hi
          obtain ⟨p, hp, rfl⟩ := List.mem_map.1 hi
          exact contractIS_mem hL hR hp
      · simp at h

section
open DiagEx

/-- The hypotheses of `C28_operator_partial` are met by a dense tensor and a rectangular delta, and the operator gives the elements
of the product. -/
example : (IT.dense T).OK ext ∧ (IT.diag (⟨[s, r], [], 1, 2⟩ : DG Int)).OK ext ∧ Multiplicable (IT.dense T) (.diag ⟨[s, r], [], 1, 2⟩) ∧
    AddEx.cells ((IT.dense T).mulEq 10 0 0 (.diag ⟨[s, r], [], 1, 2⟩)) = some (.ok ([1, 4], [1, 2, 3, 4])) := by
  refine ⟨⟨⟨by decide +kernel, by decide +kernel, by decide, by decide⟩, rfl⟩,
    ⟨⟨by decide +kernel, by decide +kernel, by decide, by decide⟩, by decide, Or.inr ⟨r, by decide, rfl⟩, Or.inl rfl⟩,
    Or.inr (Or.inr fun _ _ => ⟨r, by decide, by decide +kernel, rfl⟩), by decide +kernel⟩

end

end Verif.Net
