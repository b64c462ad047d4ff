import Verif.MPS.TraceAB

/-! # The trace of one operator -/

namespace Verif.MPS

open Verif.Tensor Verif.Index Verif.Index.IndexSet Verif.Net Finset

variable {K : Type*} [CommRing K] [DecidableEq K]

/-! ## One site -/

/-- Both site indices of one tensor set to the same value. -/
def both (a b : Key) (J : Nat) (τ : Key → Nat) : Key → Nat := fun k => if k = a ∨ k = b then J else τ k

/-- The partial trace of one tensor. -/
def trVal (ext : Key → Nat) (T : DTensor K) (a b : Key) (τ : Key → Nat) : K := ∑ J ∈ range (ext a), T.sem.val (both a b J τ)

omit [CommRing K] [DecidableEq K] in
theorem foldl_min {n : Nat} : ∀ (is : IndexSet), (∀ i ∈ is, i.dim = n) → is.foldl (fun m j => min m j.dim) n = n
  | [], _ => rfl
  | i :: is, h => by
    rw [List.foldl_cons, h i (by simp), Nat.min_self]
    exact foldl_min is fun j hj => h j (by simp [hj])

omit [CommRing K] [DecidableEq K] in
theorem minDim_eq {is : IndexSet} {n : Nat} (hne : is ≠ []) (h : ∀ i ∈ is, i.dim = n) : minDim is = n := by
  rcases is with _ | ⟨i, is⟩
  · exact absurd rfl hne
  · rw [minDim, h i (by simp)]
    exact foldl_min is fun j hj => h j (by simp [hj])

omit [CommRing K] [DecidableEq K] in
theorem keys_dag (is : IndexSet) : keys (is.map (·.dag)) = keys is := by
  rw [keys, List.map_map]; rfl

theorem it_ok {ext : Key → Nat} {T : DTensor K} (h : T.OK ext) : (DTensor.it T).OK ext :=
  ⟨⟨h.nodup, h.dims, h.pos, h.noqn⟩, rfl⟩

theorem holds_val {ext : Key → Nat} {N : IT K} {T : Ten Key K} (h : Holds ext N T) {σ : Key → Nat} (hσ : ∀ k ∈ keys N.is, σ k < ext k) :
    N.sem.val σ = T.val σ := by
  have h1 := (IT.holds_sem h.ok).elt σ (by rw [IT.inds_sem]; exact hσ)
  have h2 := h.elt σ fun k hk => hσ k (h.inds.mem_iff.2 hk)
  exact Res.ok.inj (h1.symm.trans h2)

theorem trSite_spec {ext : Key → Nat} {T : DTensor K} (hT : T.OK ext) {prev next : IndexSet} {a b : Key} (hab : a ≠ b)
    (hu : ∀ k, k ∈ keys T.is ∧ k ∉ keys prev ∧ k ∉ keys next ↔ k = a ∨ k = b) (hdim : ext a = ext b) {d n fuel : Nat}
    (hd : 1 ≤ d) (hext : ∀ k, ext k ≤ d) (hmax : ((d ^ n : Nat) : Int) ≤ offMax) (hfuel : d ^ n < fuel) (hn : T.is.length ≤ n)
    (junk fresh : Int → K) :
    ∃ R, trSite fuel junk fresh prev next T = some (.ok R) ∧ R.OK ext ∧ (∀ k, k ∈ keys R.is ↔ k ∈ keys T.is ∧ k ≠ a ∧ k ≠ b) ∧
      (∀ σ : Key → Nat, (∀ k ∈ keys R.is, σ k < ext k) → R.sem.val σ = trVal ext T a b σ) ∧
      ((∃ k ∈ keys T.is, k ≠ a ∧ k ≠ b) → ∃ r, R = .dense r) := by
  have hu' : ∀ k, k ∈ keys (uniqueIndsL T.is [prev, next]) ↔ k = a ∨ k = b := by
    intro k
    rw [(C11_unique T.is [] [prev, next]).2.2.2, ← hu]
    simp
  have hsub : (uniqueIndsL T.is [prev, next]).Sublist T.is := by unfold uniqueIndsL; exact (C11_unique T.is _ []).2.1
  have hnd : (keys (uniqueIndsL T.is [prev, next])).Nodup := by unfold uniqueIndsL; exact (C11_unique T.is _ []).2.2.1 hT.nodup
  unfold trSite
  generalize hU : uniqueIndsL T.is [prev, next] = U at *
  have hUd : ∀ i ∈ U, i.dim = ext a := by
    intro i hi
    rw [hT.dims i (hsub.subset hi)]
    rcases (hu' i.key).1 (List.mem_map_of_mem hi) with h | h
    · rw [h]
    · rw [h, hdim]
  have hUne : U ≠ [] := by
    rintro rfl
    exact absurd ((hu' a).2 (Or.inl rfl)) (by simp [keys])
  have hD : IsOK ext (U.map (·.dag)) := by
    refine ⟨by rw [keys_dag]; exact hnd, ?_, ?_, ?_⟩ <;>
    · intro i hi
      obtain ⟨j, hj, rfl⟩ := List.mem_map.1 hi
      have := hsub.subset hj
      first | exact hT.dims j this | exact hT.pos j this | (simp [Index.dag, hT.noqn j this])
  have hmin : minDim (U.map (·.dag)) = ext a := by
    refine minDim_eq (by simpa using hUne) ?_
    intro i hi
    obtain ⟨j, hj, rfl⟩ := List.mem_map.1 hi
    exact hUd j hj
  have hG : DG.OK ext (⟨U.map (·.dag), [], 1, minDim (U.map (·.dag))⟩ : DG K) := by
    refine ⟨hD, ?_, Or.inr ?_, Or.inl rfl⟩
    · intro i hi
      obtain ⟨j, hj, rfl⟩ := List.mem_map.1 hi
      simp only [hmin]
      exact (hUd j hj).ge
    · rcases U with _ | ⟨j, U⟩
      · exact absurd rfl hUne
      · exact ⟨j.dag, by simp, by simp only [hmin]; exact hUd j (by simp)⟩
  have hVl : (U.map (·.dag)).length ≤ n := by simpa using le_trans hsub.length_le hn
  have hVne : (U.map (·.dag)).length ≠ 0 := by simpa using hUne
  have hV : ∀ k, k ∈ keys (U.map (·.dag)) ↔ k = a ∨ k = b := fun k => by rw [keys_dag, hu']
  generalize U.map (·.dag) = V at *
  have haT : a ∈ keys T.is := ((hu a).2 (Or.inl rfl)).1
  have hbT : b ∈ keys T.is := ((hu b).2 (Or.inr rfl)).1
  have hTl : (((keys T.is).map ext).prod : Nat) ≤ d ^ n := inds_le hd hext hT.nodup (fun _ h => h) (by simpa [keys] using hn)
  have hUl : ((keys V).map ext).prod ≤ d ^ n :=
    inds_le hd hext hD.nodup (fun _ h => h) (by simpa [keys] using hVl)
  have hsubk : ∀ k ∈ keys V, k ∈ keys T.is := by
    intro k hk
    rw [hV] at hk
    rcases hk with rfl | rfl <;> assumption
  have hmem : ∀ k, k ∈ (mul ext T.sem (DG.sem (⟨V, [], 1, minDim V⟩ : DG K))).inds ↔ k ∈ keys T.is ∧ k ≠ a ∧ k ≠ b := by
    intro k
    rw [Net.mul_mem]
    show (k ∈ keys T.is ∧ k ∉ keys V) ∨ (k ∈ keys V ∧ k ∉ keys T.is) ↔ _
    have h1 := hsubk k
    have h2 := hV k
    tauto
  have hRl : ((mul ext T.sem (DG.sem (⟨V, [], 1, minDim V⟩ : DG K))).inds.map ext).prod ≤ d ^ n :=
    inds_le hd hext (mul_ok ext (DTensor.sem_ok hT) (DG.sem_ok hG)).nodup (L := keys T.is) (fun k hk => ((hmem k).1 hk).1)
      (by simpa [keys] using hn)
  have cast : ∀ {x : Nat}, x ≤ d ^ n → (x : Int) ≤ offMax := fun h => le_trans (by exact_mod_cast h) hmax
  obtain ⟨R, e, hR⟩ := C28_operator_partial (L := DTensor.it T) (R := deltaOf V) (it_ok hT) hG
    (Or.inr (Or.inr (fun _ h => by obtain ⟨k, h1, h2⟩ := h; exact absurd (hsubk k h1) h2)))
    fuel (cast hTl) (cast hUl) (cast hRl) (lt_of_le_of_lt hTl hfuel) (lt_of_le_of_lt hUl hfuel)
    (lt_of_le_of_lt hRl hfuel) junk fresh
  refine ⟨R, e, hR.ok, fun k => (hR.inds.mem_iff).trans (hmem k), fun σ hσ => ?_, fun ⟨k, h1, h2⟩ => ?_⟩
  · rw [holds_val hR hσ]
    show (mul ext T.sem (DG.sem (⟨V, [], 1, minDim V⟩ : DG K))).val σ = _
    rw [mul_diag_right hG (DTensor.sem_ok hT) σ, prodVal', trVal]
    simp only [hmin]
    refine sum_congr rfl fun J _ => ?_
    rw [if_pos (by intro k hk hk'; exact absurd (hsubk k hk) hk')]
    simp only [DG.at', List.isEmpty_nil, if_true, one_mul]
    congr 1
    funext k
    simp only [both, hV]
  · have hne : T.is.length ≠ 0 := by
      intro h
      rw [List.eq_nil_of_length_eq_zero h] at h1
      simp [keys] at h1
    unfold IT.mulEq at e
    rw [if_neg (by exact hne), if_neg (by exact hVne)] at e
    have e' : mulDenseDiag fuel (⟨T.is, (T.is.map (·.dim)).prod, T.store⟩ : DS K) ⟨V, [], 1, minDim V⟩ = some (.ok R) := e
    exact (mulDenseDiag_dense hT.nodup hD.nodup (k := k) h1 (by rw [hV]; tauto)).1 e'

/-! ## The chain -/

theorem shape_keys {left : Option Key} {Ts : List (DTensor K)} {a b l : List Key} (h : Shape left (Ts.map (keys ·.is)) (pairs a b) l)
    {T : DTensor K} (hT : T ∈ Ts) {k : Key} (hk : k ∈ keys T.is) : k ∈ a ∨ k ∈ b ∨ k ∈ l ∨ left = some k := by
  obtain ⟨n, hn, rfl⟩ := List.mem_iff_getElem.1 hT
  obtain ⟨h1, _, h3⟩ := h.names
  have hn' : n < (pairs a b).length := by rw [← h1]; simpa using hn
  rcases h3 n (by simpa using hn) hn' k (by simpa using hk) with h | h | h
  · simp only [pairs, List.getElem_map, List.mem_cons, List.not_mem_nil, or_false] at h
    have ha : n < a.length := by simp [pairs] at hn'; omega
    have hb : n < b.length := by simp [pairs] at hn'; omega
    rw [List.getElem_zip] at h
    rcases h with h | h
    · exact Or.inl (h ▸ List.getElem_mem ha)
    · exact Or.inr (Or.inl (h ▸ List.getElem_mem hb))
  · exact Or.inr (Or.inr (Or.inl h))
  · exact Or.inr (Or.inr (Or.inr h))

omit [CommRing K] [DecidableEq K] in
theorem Shape.first {x : Key} {M : List Key} {Ms S : List (List Key)} {l : List Key} (h : Shape (some x) (M :: Ms) S l) : x ∈ M := by
  rcases Ms with _ | ⟨N, Ms⟩
  · rcases S with _ | ⟨s, _ | ⟨s', S⟩⟩ <;> rcases l with _ | ⟨y, l⟩ <;> simp only [Shape] at h
    exact (h x).2 (Or.inr rfl)
  · rcases S with _ | ⟨s, S⟩ <;> rcases l with _ | ⟨y, l⟩ <;> simp only [Shape] at h
    exact (h.1 x).2 (Or.inr (Or.inl rfl))

/-- The first tensor of a chain: its site indices are found, and its partial trace computed. -/
theorem trSite_chain {ext : Key → Nat} {left : Option Key} {T : DTensor K} {Ts : List (DTensor K)} {a b : Key} {as bs l : List Key}
    (h : Shape left ((T :: Ts).map (keys ·.is)) (pairs (a :: as) (b :: bs)) l) (hT : T.OK ext) (hnd : (a :: as ++ b :: bs ++ l).Nodup)
    {prev : IndexSet} (hleft : ∀ k, left = some k → k ∈ keys prev) (hprev : ∀ k ∈ keys prev, k ∉ a :: as ++ b :: bs) (hdim : ext a = ext b)
    {d fuel : Nat} (hd : 1 ≤ d) (hext : ∀ k, ext k ≤ d) (hmax : ((d ^ 4 : Nat) : Int) ≤ offMax) (hfuel : d ^ 4 < fuel)
    (junk fresh : Int → K) :
    ∃ R, trSite fuel junk fresh prev (headInds Ts) T = some (.ok R) ∧ R.OK ext ∧
      (∀ k, k ∈ keys R.is ↔ left = some k ∨ l.head? = some k) ∧
      (∀ σ : Key → Nat, (∀ k ∈ keys R.is, σ k < ext k) → R.sem.val σ = trVal ext T a b σ) ∧
      ((∃ k, left = some k ∨ l.head? = some k) → ∃ r, R = .dense r) := by
  have hap : a ∉ keys prev := fun h => hprev a h (by simp)
  have hbp : b ∉ keys prev := fun h => hprev b h (by simp)
  have hal : left ≠ some a := fun h => hap (hleft a h)
  have hbl : left ≠ some b := fun h => hbp (hleft b h)
  simp only [List.cons_append, List.nodup_cons, List.mem_append, List.mem_cons, not_or, List.append_assoc] at hnd
  obtain ⟨⟨h1, h2, h3, h4⟩, hnd⟩ := hnd
  have hba : b ∉ as ∧ b ∉ bs ∧ b ∉ l := by
    rw [List.nodup_append] at hnd
    obtain ⟨_, n2, n3⟩ := hnd
    have n4 := (List.nodup_cons.1 n2).1
    simp only [List.mem_append, not_or] at n4
    exact ⟨fun h => n3 b h b (by simp) rfl, n4.1, n4.2⟩
  have hTk : ∀ k, k ∈ keys T.is ↔ (k = a ∨ k = b) ∨ left = some k ∨ l.head? = some k := by
    intro k
    rcases Ts with _ | ⟨U, Ts⟩
    · rcases l with _ | ⟨y, l⟩
      · rcases as with _ | ⟨a', as⟩
        · simp only [pairs, List.map_cons, List.map_nil, List.zip_cons_cons, List.zip_nil_left, Shape] at h
          rw [h]; simp
        · rcases bs with _ | ⟨b', bs⟩
          · simp only [pairs, List.map_cons, List.map_nil, List.zip_cons_cons, List.zip_nil_right, Shape] at h
            rw [h]; simp
          · simp [pairs, Shape] at h
      · simp [pairs, Shape] at h
    · rcases l with _ | ⟨y, l⟩
      · simp [pairs, Shape] at h
      · simp only [pairs, List.map_cons, List.zip_cons_cons, Shape] at h
        rw [h.1]; simp [eq_comm]
  have hN : ∀ k ∈ keys (headInds Ts), k ∈ as ∨ k ∈ bs ∨ k ∈ l := by
    rcases Ts with _ | ⟨U, Ts⟩
    · simp [headInds, keys]
    · rcases l with _ | ⟨y, l⟩
      · simp [pairs, Shape] at h
      · have h' : Shape (some y) ((U :: Ts).map (keys ·.is)) (pairs as bs) l := by
          simp only [pairs, List.map_cons, List.zip_cons_cons, Shape] at h ⊢
          exact h.2
        intro k hk
        rcases shape_keys h' (T := U) (by simp) hk with h | h | h | h
        · exact Or.inl h
        · exact Or.inr (Or.inl h)
        · exact Or.inr (Or.inr (by simp [h]))
        · cases h; exact Or.inr (Or.inr (by simp))
  have hy : ∀ k, l.head? = some k → k ∈ keys (headInds Ts) := by
    intro k hk
    rcases l with _ | ⟨y, l⟩
    · simp at hk
    · simp only [List.head?_cons, Option.some.injEq] at hk
      subst hk
      rcases Ts with _ | ⟨U, Ts⟩
      · simp [pairs, Shape] at h
      · simp only [pairs, List.map_cons, List.zip_cons_cons, Shape] at h
        exact h.2.first
  have haN : a ∉ keys (headInds Ts) := fun h => by have := hN a h; tauto
  have hbN : b ∉ keys (headInds Ts) := fun h => by have := hN b h; tauto
  have hau : l.head? ≠ some a := fun h => haN (hy a h)
  have hbu : l.head? ≠ some b := fun h => hbN (hy b h)
  have hlen : T.is.length ≤ 4 := by
    have : (keys T.is).length ≤ ([a, b] ++ left.toList ++ l.head?.toList).length := by
      refine (List.subperm_of_subset hT.nodup fun k hk => ?_).length_le
      have := (hTk k).1 hk
      simp only [List.mem_append, List.mem_cons, List.not_mem_nil, or_false, Option.mem_toList, Option.mem_def]
      tauto
    have e1 : left.toList.length ≤ 1 := by cases left <;> simp
    have e2 : l.head?.toList.length ≤ 1 := by cases l.head? <;> simp
    simp only [List.length_append, List.length_cons, List.length_nil, keys, List.length_map] at this
    omega
  obtain ⟨R, e, ok, hk, hv, hden⟩ := trSite_spec (prev := prev) (next := headInds Ts) hT (a := a) (b := b) h2 (by
    intro k
    rw [hTk]
    constructor
    · rintro ⟨h | h | h, h', h''⟩
      · exact h
      · exact absurd (hleft k h) h'
      · exact absurd (hy k h) h''
    · rintro (rfl | rfl)
      · exact ⟨Or.inl (Or.inl rfl), hap, haN⟩
      · exact ⟨Or.inl (Or.inr rfl), hbp, hbN⟩) hdim hd hext hmax hfuel hlen junk fresh
  have hR : ∀ k, k ∈ keys T.is ∧ k ≠ a ∧ k ≠ b ↔ left = some k ∨ l.head? = some k := by
    intro k
    rw [hTk]
    constructor
    · tauto
    · rintro (h | h)
      · exact ⟨Or.inr (Or.inl h), fun e => hal (e ▸ h), fun e => hbl (e ▸ h)⟩
      · exact ⟨Or.inr (Or.inr h), fun e => hau (e ▸ h), fun e => hbu (e ▸ h)⟩
  exact ⟨R, e, ok, fun k => (hk k).trans (hR k), hv, fun ⟨k, h⟩ => hden ⟨k, ((hR k).2 h).1, ((hR k).2 h).2⟩⟩

/-- The product of the partial traces. -/
def trProd (ext : Key → Nat) : List (DTensor K) → List Key → List Key → (Key → Nat) → K
  | T :: Ts, a :: as, b :: bs, τ => trVal ext T a b τ * trProd ext Ts as bs τ
  | _, _, _, _ => 1

theorem trVal_dep {ext : Key → Nat} {T : DTensor K} (hT : T.OK ext) (a b : Key) : DependsOn (· ∈ keys T.is) (trVal ext T a b) := by
  intro σ τ h
  refine sum_congr rfl fun J _ => (DTensor.sem_ok hT).dep _ _ fun k hk => ?_
  simp only [both]
  rw [h k hk]

theorem trProd_dep {ext : Key → Nat} {P : Key → Prop} : ∀ {Ts : List (DTensor K)} (_ : ∀ T ∈ Ts, T.OK ext)
    (_ : ∀ T ∈ Ts, ∀ k ∈ keys T.is, P k) (as bs : List Key), DependsOn P (trProd ext Ts as bs)
  | [], _, _, _, _ => fun _ _ _ => rfl
  | _ :: _, _, _, [], _ => fun _ _ _ => rfl
  | _ :: _, _, _, _ :: _, [] => fun _ _ _ => rfl
  | T :: Ts, h, h', a :: as, b :: bs => fun σ τ e => by
    simp only [trProd]
    rw [trVal_dep (h T (by simp)) a b σ τ fun k hk => e k (h' T (by simp) k hk),
      trProd_dep (fun U hU => h U (by simp [hU])) (fun U hU => h' U (by simp [hU])) as bs σ τ e]

theorem nil_of_keys {is : IndexSet} (h : ∀ k, k ∉ keys is) : is = [] := by
  rcases is with _ | ⟨i, is⟩
  · rfl
  · exact absurd (by simp [keys]) (h i.key)

theorem keys_one {is : IndexSet} {x : Key} (hnd : (keys is).Nodup) (h : ∀ k, k ∈ keys is ↔ k = x) : keys is = [x] :=
  List.perm_singleton.1 ((List.perm_ext_iff_of_nodup hnd (by simp)).2 fun k => by simp [h])

omit [CommRing K] [DecidableEq K] in
theorem IT.nodup {ext : Key → Nat} {T : IT K} (h : T.OK ext) : (keys T.is).Nodup := by
  cases T with
  | dense t => exact DS.OK.is h |>.nodup
  | diag t => exact DG.OK.is h |>.nodup

theorem IT.elt_nil {ext : Key → Nat} {T : IT K} (h : T.OK ext) (h0 : T.is = []) : T.getElt [] = .ok (T.sem.val 0) := by
  have := (IT.holds_sem h).elt 0 (by rw [IT.inds_sem, h0]; simp [keys])
  rwa [h0] at this

theorem mulEq_dense {fuel : Nat} {junk fresh : Int → K} {l m : DS K} {N : IT K} (hl : l.is ≠ []) (hm : m.is ≠ [])
    (h : (IT.dense l).mulEq fuel junk fresh (IT.dense m) = some (.ok N)) : ∃ n, N = .dense n := by
  unfold IT.mulEq at h
  have h1 : (IT.dense l).is.length ≠ 0 := fun h => hl (List.eq_nil_of_length_eq_zero h)
  have h2 : (IT.dense m).is.length ≠ 0 := fun h => hm (List.eq_nil_of_length_eq_zero h)
  rw [if_neg h1, if_neg h2] at h
  simp only at h
  rcases hr : DTensor.contractDense fuel junk fresh ⟨l.is, l.mem⟩ ⟨m.is, m.mem⟩ with _ | _ | _ | _ <;> rw [hr] at h <;>
    simp [Run.bind] at h
  exact ⟨_, h.symm⟩

/-- One step of the loop. -/
theorem step_spec {ext : Key → Nat} {x : Key} {o : Option Key} {L M : DS K} (hL : L.OK ext) (hM : M.OK ext)
    (hLk : ∀ k, k ∈ keys L.is ↔ k = x) (hMk : ∀ k, k ∈ keys M.is ↔ k = x ∨ o = some k) (hox : o ≠ some x) {d fuel : Nat}
    (hd : 1 ≤ d) (hext : ∀ k, ext k ≤ d) (hmax : ((d ^ 4 : Nat) : Int) ≤ offMax) (hfuel : d ^ 4 < fuel) (junk fresh : Int → K) :
    ∃ n, (IT.dense L).mulEq fuel junk fresh (IT.dense M) = some (.ok (.dense n)) ∧ n.OK ext ∧ (∀ k, k ∈ keys n.is ↔ o = some k) ∧
      ∀ σ : Key → Nat, (∀ k ∈ keys n.is, σ k < ext k) →
        n.sem.val σ = sumOver ext [x] (fun τ => L.sem.val τ * M.sem.val τ) σ := by
  have kL : keys L.is = [x] := keys_one hL.is.nodup hLk
  have hxM : x ∈ keys M.is := (hMk x).2 (Or.inl rfl)
  have hmem : ∀ k, k ∈ (mul ext L.sem M.sem).inds ↔ o = some k := by
    intro k
    rw [Net.mul_mem]
    show (k ∈ keys L.is ∧ k ∉ keys M.is) ∨ (k ∈ keys M.is ∧ k ∉ keys L.is) ↔ _
    rw [hLk, hMk]
    constructor
    · tauto
    · intro h
      exact Or.inr ⟨Or.inr h, by rintro rfl; exact hox h⟩
  have two : ∀ {I : List Key}, I.Nodup → (∀ k ∈ I, k = x ∨ o = some k) → (I.map ext).prod ≤ d ^ 4 := by
    intro I hI h
    refine inds_le hd hext hI (L := x :: o.toList) (fun k hk => ?_) (by cases o <;> simp)
    have := h k hk
    simp only [List.mem_cons, Option.mem_toList, Option.mem_def]
    tauto
  have cast : ∀ {x : Nat}, x ≤ d ^ 4 → (x : Int) ≤ offMax := fun h => le_trans (by exact_mod_cast h) hmax
  have b1 : ((keys L.is).map ext).prod ≤ d ^ 4 := two hL.is.nodup fun k hk => Or.inl ((hLk k).1 hk)
  have b2 : ((keys M.is).map ext).prod ≤ d ^ 4 := two hM.is.nodup fun k hk => (hMk k).1 hk
  have b3 : ((mul ext L.sem M.sem).inds.map ext).prod ≤ d ^ 4 :=
    two (mul_ok ext (DS.sem_ok hL) (DS.sem_ok hM)).nodup fun k hk => Or.inr ((hmem k).1 hk)
  obtain ⟨N, e, hN⟩ := C28_operator_partial (L := .dense L) (R := .dense M) hL hM (Or.inr (Or.inr trivial)) fuel (cast b1) (cast b2)
    (cast b3) (lt_of_le_of_lt b1 hfuel) (lt_of_le_of_lt b2 hfuel) (lt_of_le_of_lt b3 hfuel) junk fresh
  obtain ⟨n, rfl⟩ := mulEq_dense (by rintro h; simp [h, keys] at kL) (by rintro h; simp [h, keys] at hxM) e
  refine ⟨n, e, hN.ok, fun k => hN.inds.mem_iff.trans (hmem k), fun σ hσ => ?_⟩
  have := holds_val hN hσ
  refine this.trans ?_
  have hxM' : x ∈ M.sem.inds := hxM
  simp only [mul, IT.sem]
  rw [show L.sem.inds = [x] from kL]
  simp only [List.filter_cons, hxM', decide_true, if_true, List.filter_nil]

theorem traceLoop_spec {ext : Key → Nat} {d fuel : Nat} (hd : 1 ≤ d) (hext : ∀ k, ext k ≤ d) (hmax : ((d ^ 4 : Nat) : Int) ≤ offMax)
    (hfuel : d ^ 4 < fuel) (junk fresh : Int → K) : ∀ (Ts : List (DTensor K)) (as bs l : List Key) (x : Key) (prev : IndexSet) (L : DS K),
    Shape (some x) (Ts.map (keys ·.is)) (pairs as bs) l → as.length = bs.length → (∀ T ∈ Ts, T.OK ext) → (as ++ bs ++ (x :: l)).Nodup →
    as.map ext = bs.map ext → x ∈ keys prev → (∀ k ∈ keys prev, k ∉ as ++ bs) → L.OK ext → (∀ k, k ∈ keys L.is ↔ k = x) →
    ∃ R, traceLoop fuel junk fresh prev (.dense L) Ts = some (.ok R) ∧ R.is = [] ∧
      R.getElt [] = .ok (sumOver ext (x :: l) (fun τ => L.sem.val τ * trProd ext Ts as bs τ) 0) := by
  intro Ts
  induction Ts with
  | nil => intro as bs l x prev L h; simp [Shape] at h
  | cons T Ts ih =>
    intro as bs l x prev L h hlen hok hnd hdim hx hprev hL hLk
    rcases as with _ | ⟨a, as⟩
    · rcases Ts with _ | ⟨U, Ts⟩ <;> simp [pairs, Shape] at h
    rcases bs with _ | ⟨b, bs⟩
    · simp at hlen
    simp only [List.map_cons, List.cons.injEq] at hdim
    have hnd' : (a :: as ++ b :: bs ++ l).Nodup := hnd.sublist (by simp)
    obtain ⟨R, e, ok, hk, hv, hden⟩ := trSite_chain h (hok T (by simp)) hnd' (prev := prev) (fun k e => by cases e; exact hx) hprev
      hdim.1 hd hext hmax hfuel junk fresh
    obtain ⟨M, rfl⟩ := hden ⟨x, Or.inl rfl⟩
    have hxl : x ∉ l := by
      have := (List.nodup_append.1 hnd).2.1
      exact (List.nodup_cons.1 this).1
    obtain ⟨n, e2, okn, hnk, hnv⟩ := step_spec (o := l.head?) hL (M := M) ok hLk (fun k => (hk k).trans (by
      simp [eq_comm])) (fun h => hxl (List.mem_of_mem_head? h)) hd hext hmax hfuel junk fresh
    have hval : ∀ σ : Key → Nat, (∀ k ∈ keys n.is, σ k < ext k) →
        n.sem.val σ = sumOver ext [x] (fun τ => L.sem.val τ * trVal ext T a b τ) σ := by
      intro σ hσ
      rw [hnv σ hσ]
      refine sumOver_congr_bd ext [x] σ fun τ h1 h2 => ?_
      rw [← hv τ]
      · rfl
      · intro k hk'
        rcases (hk k).1 hk' with h | h
        · cases h; exact h2 x (by simp)
        · rw [h1 k (by
            simp only [List.mem_singleton]
            intro e
            exact hxl (List.mem_of_mem_head? (e ▸ h)))]
          exact hσ k ((hnk k).2 h)
    rw [traceLoop, e]
    simp only [Run.bind]
    rw [e2]
    simp only [Run.bind]
    rcases Ts with _ | ⟨U, Ts⟩
    · rcases l with _ | ⟨y, l⟩
      · have h0 : n.is = [] := nil_of_keys fun k hk => by simpa using (hnk k).1 hk
        refine ⟨.dense n, rfl, h0, ?_⟩
        rw [IT.elt_nil (T := .dense n) okn h0]
        congr 1
        refine (hval 0 (by rw [h0]; simp [keys])).trans ?_
        refine sumOver_congr ext [x] 0 fun τ _ => ?_
        simp [trProd]
      · simp [pairs, Shape] at h
    · rcases l with _ | ⟨y, l⟩
      · simp [pairs, Shape] at h
      have h' : Shape (some y) ((U :: Ts).map (keys ·.is)) (pairs as bs) l := by
        simp only [pairs, List.map_cons, List.zip_cons_cons, Shape] at h ⊢
        exact h.2
      have hTm : ∀ k ∈ keys T.is, k = a ∨ k = b ∨ k = x ∨ k = y := by
        intro k hk
        simp only [pairs, List.map_cons, List.zip_cons_cons, Shape] at h
        have := (h.1 k).1 hk
        simp at this
        tauto
      have hyT : y ∈ keys T.is := by
        simp only [pairs, List.map_cons, List.zip_cons_cons, Shape] at h
        exact (h.1 y).2 (Or.inr (Or.inr rfl))
      have hall : ∀ k, k = a ∨ k = b ∨ k = x ∨ k = y → k ∉ as ++ bs := by
        have p := List.nodup_append.1 hnd
        have q := List.nodup_append.1 p.1
        intro k hk hm
        rcases List.mem_append.1 hm with hm | hm
        · rcases hk with rfl | rfl | rfl | rfl
          · exact (List.nodup_cons.1 q.1).1 hm
          · exact q.2.2 k (by simp [hm]) k (by simp) rfl
          · exact p.2.2 k (by simp [hm]) k (by simp) rfl
          · exact p.2.2 k (by simp [hm]) k (by simp) rfl
        · rcases hk with rfl | rfl | rfl | rfl
          · exact q.2.2 k (by simp) k (by simp [hm]) rfl
          · exact (List.nodup_cons.1 q.2.1).1 hm
          · exact p.2.2 k (by simp [hm]) k (by simp) rfl
          · exact p.2.2 k (by simp [hm]) k (by simp) rfl
      have hnd2 : (as ++ bs ++ (y :: l)).Nodup := by
        refine hnd.sublist ?_
        refine List.Sublist.append (List.Sublist.append (List.sublist_cons_self _ _) (List.sublist_cons_self _ _))
          (List.sublist_cons_self _ _)
      obtain ⟨R, eR, h0, hR⟩ := ih as bs l y T.is n h' (by simpa using hlen) (fun V hV => hok V (by simp at hV ⊢; tauto)) hnd2 hdim.2 hyT
        (fun k hk => hall k (hTm k hk)) okn (fun k => (hnk k).trans (by simp [eq_comm]))
      refine ⟨R, eR, h0, hR.trans ?_⟩
      congr 1
      have hxr : ∀ V ∈ U :: Ts, ∀ k ∈ keys V.is, k ∉ [x] := by
        intro V hV k hkV hm
        rw [List.mem_singleton] at hm
        subst hm
        have hk' := hall k (Or.inr (Or.inr (Or.inl rfl)))
        simp only [List.mem_append, not_or] at hk'
        rcases shape_keys h' hV hkV with h | h | h | h
        · exact hk'.1 h
        · exact hk'.2 h
        · exact hxl (by simp [h])
        · cases h; exact hxl (by simp)
      have hstep : sumOver ext (y :: l) (fun τ => n.sem.val τ * trProd ext (U :: Ts) as bs τ) 0 =
          sumOver ext (y :: l) (sumOver ext [x] fun τ => L.sem.val τ * trVal ext T a b τ * trProd ext (U :: Ts) as bs τ) 0 := by
        refine sumOver_congr_bd ext (y :: l) 0 fun τ _ h2 => ?_
        rw [sumOver_mul_right ext [x] τ (trProd_dep (fun V hV => hok V (by simp at hV ⊢; tauto)) hxr as bs),
          hval τ (fun k hk => by
            have := (hnk k).1 hk
            simp only [List.head?_cons, Option.some.injEq] at this
            subst this
            exact h2 y (by simp))]
      rw [hstep, ← sumOver_append]
      have hp : (x :: y :: l).Perm (y :: l ++ [x]) := (List.perm_append_comm (l₁ := [x]) (l₂ := y :: l))
      rw [sumOver_perm ext hp.symm (by
        rw [← hp.nodup_iff]; exact (List.nodup_append.1 hnd).2.1)]
      refine sumOver_congr ext _ 0 fun τ _ => ?_
      simp only [trProd]
      ring

/-! ## The sum over the values of the site indices -/

omit [CommRing K] [DecidableEq K] in
theorem assign_congr {k : Key} : ∀ {s : List Key} {v : List Nat} {ρ ρ' : Key → Nat}, ρ k = ρ' k → assign ρ s v k = assign ρ' s v k
  | [], _, _, _, h => by simpa [assign] using h
  | _ :: _, [], _, _, h => by simpa [assign] using h
  | x :: s, v :: vs, ρ, ρ', h => by
    simp only [assign]
    refine assign_congr ?_
    simp only [Function.update_apply, h]

omit [DecidableEq K] in
theorem sumVals_mul_left {ds : List Nat} (c : K) {f : List Nat → K} : sumVals ds (fun v => c * f v) = c * sumVals ds f := by
  induction ds generalizing f with
  | nil => rfl
  | cons d ds ih => simp only [sumVals, ih, mul_sum]

theorem trProd_sum {ext : Key → Nat} : ∀ (Ts : List (DTensor K)) (as bs : List Key) (left : Option Key) (l : List Key),
    Shape left (Ts.map (keys ·.is)) (pairs as bs) l → as.length = bs.length → (∀ T ∈ Ts, T.OK ext) → (as ++ bs ++ l).Nodup →
    (∀ k, left = some k → k ∉ as ++ bs) → ∀ τ : Key → Nat,
    trProd ext Ts as bs τ = sumVals (as.map ext) fun v => (Ts.map fun T => T.sem.val (assign (assign τ as v) bs v)).prod := by
  intro Ts
  induction Ts with
  | nil => intro as bs left l h; simp [Shape] at h
  | cons T Ts ih =>
    intro as bs left l h hlen hok hnd hleft τ
    rcases as with _ | ⟨a, as⟩
    · rcases Ts with _ | ⟨U, Ts⟩ <;> simp [pairs, Shape] at h
    rcases bs with _ | ⟨b, bs⟩
    · simp at hlen
    have q := List.nodup_append.1 hnd
    have r := List.nodup_append.1 q.1
    have hab : a ≠ b := r.2.2 a (by simp) b (by simp)
    have ha : a ∉ as := (List.nodup_cons.1 r.1).1
    have hb : b ∉ bs := (List.nodup_cons.1 r.2.1).1
    have ha' : a ∉ bs := fun h => r.2.2 a (by simp) a (by simp [h]) rfl
    have hb' : b ∉ as := fun h => r.2.2 b (by simp [h]) b (by simp) rfl
    have hTm : ∀ k ∈ keys T.is, k ∉ as ∧ k ∉ bs := by
      intro k hk
      have hcase : k = a ∨ k = b ∨ left = some k ∨ k ∈ l := by
        rcases Ts with _ | ⟨U, Ts⟩
        · rcases l with _ | ⟨y, l⟩
          · rcases as with _ | ⟨a', as⟩
            · simp only [pairs, List.map_cons, List.map_nil, List.zip_cons_cons, List.zip_nil_left, Shape] at h
              have := (h k).1 hk; simp at this; tauto
            · rcases bs with _ | ⟨b', bs⟩
              · simp at hlen
              · simp [pairs, Shape] at h
          · simp [pairs, Shape] at h
        · rcases l with _ | ⟨y, l⟩
          · simp [pairs, Shape] at h
          · simp only [pairs, List.map_cons, List.zip_cons_cons, Shape] at h
            have := (h.1 k).1 hk; simp at this; simp; tauto
      rcases hcase with rfl | rfl | h | h
      · exact ⟨ha, ha'⟩
      · exact ⟨hb', hb⟩
      · have := hleft k h
        simp only [List.cons_append, List.mem_cons, List.mem_append, not_or] at this
        exact ⟨this.2.1, this.2.2.2⟩
      · exact ⟨fun h' => q.2.2 k (by simp [h']) k h rfl, fun h' => q.2.2 k (by simp [h']) k h rfl⟩
    have hrest : ∀ V ∈ Ts, ∀ k ∈ keys V.is, k ≠ a ∧ k ≠ b := by
      rcases Ts with _ | ⟨U, Ts⟩
      · simp
      rcases l with _ | ⟨y, l⟩
      · simp [pairs, Shape] at h
      have h' : Shape (some y) ((U :: Ts).map (keys ·.is)) (pairs as bs) l := by
        simp only [pairs, List.map_cons, List.zip_cons_cons, Shape] at h ⊢
        exact h.2
      intro V hV k hk
      have hal : a ∉ y :: l := fun h => q.2.2 a (by simp) a h rfl
      have hbl : b ∉ y :: l := fun h => q.2.2 b (by simp) b h rfl
      simp only [List.mem_cons, not_or] at hal hbl
      rcases shape_keys h' hV hk with hh | hh | hh | hh
      · exact ⟨by rintro rfl; exact ha hh, by rintro rfl; exact hb' hh⟩
      · exact ⟨by rintro rfl; exact ha' hh, by rintro rfl; exact hb hh⟩
      · exact ⟨by rintro rfl; exact hal.2 hh, by rintro rfl; exact hbl.2 hh⟩
      · simp only [Option.some.injEq] at hh
        exact ⟨by rintro rfl; exact hal.1 hh.symm, by rintro rfl; exact hbl.1 hh.symm⟩
    have hP : trProd ext Ts as bs τ =
        sumVals (as.map ext) fun v => (Ts.map fun T => T.sem.val (assign (assign τ as v) bs v)).prod := by
      rcases Ts with _ | ⟨U, Ts⟩
      · rcases as with _ | ⟨a', as⟩
        · simp [trProd, sumVals]
        · rcases bs with _ | ⟨b', bs⟩
          · simp at hlen
          · rcases l with _ | ⟨y, l⟩ <;> simp [pairs, Shape] at h
      rcases l with _ | ⟨y, l⟩
      · simp [pairs, Shape] at h
      have h' : Shape (some y) ((U :: Ts).map (keys ·.is)) (pairs as bs) l := by
        simp only [pairs, List.map_cons, List.zip_cons_cons, Shape] at h ⊢
        exact h.2
      refine ih as bs (some y) l h' (by simpa using hlen) (fun V hV => hok V (by simp [hV])) ?_ ?_ τ
      · refine hnd.sublist ?_
        exact List.Sublist.append (List.Sublist.append (List.sublist_cons_self _ _) (List.sublist_cons_self _ _))
          (List.sublist_cons_self _ _)
      · intro k hk hm
        cases hk
        refine q.2.2 y ?_ y (by simp) rfl
        simp only [List.cons_append, List.mem_cons, List.mem_append] at hm ⊢
        tauto
    rw [trProd, hP, trVal, List.map_cons, sumVals, sum_mul]
    refine sum_congr rfl fun J _ => ?_
    rw [← sumVals_mul_left]
    refine sumVals_congr fun v _ => ?_
    rw [List.map_cons, List.prod_cons]
    congr 1
    · refine (DTensor.sem_ok (hok T (by simp))).dep _ _ fun k hk => ?_
      simp only [assign]
      rw [assign_not_mem (hTm k hk).2, Function.update_apply, assign_not_mem (hTm k hk).1, Function.update_apply, both]
      by_cases h1 : k = b <;> by_cases h2 : k = a <;> simp [h1, h2]
    · congr 1
      refine List.map_congr_left fun V hV => ?_
      refine (DTensor.sem_ok (hok V (by simp [hV]))).dep _ _ fun k hk => ?_
      have := hrest V hV k hk
      simp only [assign]
      refine assign_congr ?_
      rw [Function.update_apply, if_neg this.2]
      refine assign_congr ?_
      rw [Function.update_apply, if_neg this.1]

omit [DecidableEq K] in
theorem sumOver_sumVals (ext : Key → Nat) {F : List Nat → (Key → Nat) → K} (cs : List Key) (ρ : Key → Nat) : ∀ (ds : List Nat),
    sumOver ext cs (fun τ => sumVals ds fun v => F v τ) ρ = sumVals ds fun v => sumOver ext cs (F v) ρ := by
  intro ds
  induction ds generalizing F with
  | nil => rfl
  | cons d ds ih =>
    simp only [sumVals]
    rw [sumOver_sum]
    exact sum_congr rfl fun J _ => ih

omit [DecidableEq K] in
/-- Summing over names that are not reassigned. -/
theorem sumOver_shift (ext : Key → Nat) {G : (Key → Nat) → K} {g : (Key → Nat) → Key → Nat} : ∀ (cs : List Key) (ρ : Key → Nat),
    (∀ x ∈ cs, ∀ ρ v, g (Function.update ρ x v) = Function.update (g ρ) x v) →
    sumOver ext cs (fun τ => G (g τ)) ρ = sumOver ext cs G (g ρ) := by
  intro cs
  induction cs with
  | nil => intro ρ _; rfl
  | cons x cs ih =>
    intro ρ h
    simp only [sumOver]
    refine sum_congr rfl fun v _ => ?_
    rw [ih _ fun y hy => h y (by simp [hy]), h x (by simp)]

omit [CommRing K] [DecidableEq K] in
theorem assign_update {x : Key} {n : Nat} : ∀ {s : List Key} {v : List Nat} {ρ : Key → Nat}, x ∉ s →
    assign (Function.update ρ x n) s v = Function.update (assign ρ s v) x n
  | [], _, _, _ => by simp [assign]
  | _ :: _, [], _, _ => by simp [assign]
  | y :: s, v :: vs, ρ, h => by
    simp only [List.mem_cons, not_or] at h
    simp only [assign]
    rw [Function.update_comm h.1, assign_update h.2]

/-- C102: `traceC(A)` is the trace of the operator: the sum over all values `v` of its site indices of the element between `v` and
`v`. Every tensor has at most `d ^ 4` elements. -/
theorem C102_trace {ext : Key → Nat} {A : List (DTensor K)} {a b l : List Key} (hA : IsMPO ext A a b l) (hlen : a.length = b.length)
    (hdim : a.map ext = b.map ext) {d fuel : Nat} (hd : 1 ≤ d) (hext : ∀ k, ext k ≤ d) (hmax : ((d ^ 4 : Nat) : Int) ≤ offMax)
    (hfuel : d ^ 4 < fuel) (junk fresh : Int → K) :
    traceC fuel junk fresh A = some (.ok (sumVals (a.map ext) fun v => amp ext A l (assign (assign 0 a v) b v))) := by
  have nA := hA.nodups hlen
  have hgoal : sumOver ext l (trProd ext A a b) 0 = sumVals (a.map ext) fun v => amp ext A l (assign (assign 0 a v) b v) := by
    rw [funext (trProd_sum A a b none l hA.shape hlen hA.ok nA (by simp)), sumOver_sumVals]
    refine sumVals_congr fun v _ => ?_
    rw [amp]
    refine sumOver_shift ext (G := fun τ => (A.map fun T => T.sem.val τ).prod) (g := fun τ => assign (assign τ a v) b v) l 0 ?_
    intro x hx ρ n
    have h := fun h => (List.nodup_append.1 nA).2.2 x h x hx rfl
    simp only [List.mem_append, imp_false, not_or] at h
    rw [assign_update h.1, assign_update h.2]
  rw [← hgoal]
  have hsh := hA.shape
  rcases A with _ | ⟨T, Ts⟩
  · exact absurd hsh (by simp [Shape])
  rcases a with _ | ⟨a, as⟩
  · rcases Ts with _ | ⟨U, Ts⟩ <;> exact absurd hsh (by simp [pairs, Shape])
  rcases b with _ | ⟨b, bs⟩
  · simp at hlen
  simp only [List.map_cons, List.cons.injEq] at hdim
  obtain ⟨R, e, ok, hk, hv, hden⟩ := trSite_chain hsh (hA.ok T (by simp)) nA (prev := []) (by simp) (by simp [keys]) hdim.1
    hd hext hmax hfuel junk fresh
  rw [traceC, e]
  simp only [Run.bind]
  rcases Ts with _ | ⟨U, Ts⟩
  · rcases l with _ | ⟨y, l⟩
    swap
    · exact absurd hsh (by simp [pairs, Shape])
    have h0 : R.is = [] := nil_of_keys fun k hk' => by simpa using (hk k).1 hk'
    simp only [traceLoop, Run.bind]
    rw [eltIT, if_neg (by simp [h0]), IT.elt_nil ok h0, hv 0 (by rw [h0]; simp [keys])]
    simp [sumOver, trProd]
  · rcases l with _ | ⟨y, l⟩
    · exact absurd hsh (by simp [pairs, Shape])
    obtain ⟨n, rfl⟩ := hden ⟨y, Or.inr rfl⟩
    have h' : Shape (some y) ((U :: Ts).map (keys ·.is)) (pairs as bs) l := by
      have := hsh
      simp only [pairs, List.map_cons, List.zip_cons_cons, Shape] at this ⊢
      exact this.2
    have hTm : ∀ k ∈ keys T.is, k = a ∨ k = b ∨ k = y := by
      intro k hk
      have := hsh
      simp only [pairs, List.map_cons, List.zip_cons_cons, Shape] at this
      have := (this.1 k).1 hk
      simp at this
      tauto
    have hyT : y ∈ keys T.is := by
      have := hsh
      simp only [pairs, List.map_cons, List.zip_cons_cons, Shape] at this
      exact (this.1 y).2 (Or.inr (Or.inr rfl))
    have p := List.nodup_append.1 nA
    have q := List.nodup_append.1 p.1
    have hall : ∀ k, k = a ∨ k = b ∨ k = y → k ∉ as ++ bs := by
      intro k hk hm
      rcases List.mem_append.1 hm with hm | hm
      · rcases hk with rfl | rfl | rfl
        · exact (List.nodup_cons.1 q.1).1 hm
        · exact q.2.2 k (by simp [hm]) k (by simp) rfl
        · exact p.2.2 k (by simp [hm]) k (by simp) rfl
      · rcases hk with rfl | rfl | rfl
        · exact q.2.2 k (by simp) k (by simp [hm]) rfl
        · exact (List.nodup_cons.1 q.2.1).1 hm
        · exact p.2.2 k (by simp [hm]) k (by simp) rfl
    obtain ⟨R, eR, h0, hR⟩ := traceLoop_spec hd hext hmax hfuel junk fresh (U :: Ts) as bs l y T.is n h' (by simpa using hlen)
      (fun V hV => hA.ok V (by simp [hV]))
      (nA.sublist (List.Sublist.append (List.Sublist.append (List.sublist_cons_self _ _) (List.sublist_cons_self _ _)) (List.Sublist.refl _)))
      hdim.2 hyT (fun k hk => hall k (hTm k hk)) ok (fun k => (hk k).trans (by simp [eq_comm]))
    rw [eR]
    simp only [Run.bind]
    rw [eltIT, if_neg (by simp [h0]), hR]
    congr 2
    refine sumOver_congr_bd ext (y :: l) 0 fun τ _ h2 => ?_
    rw [trProd]
    congr 1
    refine hv τ fun k hk' => ?_
    have := (hk k).1 hk'
    simp only [reduceCtorEq, false_or, List.head?_cons, Option.some.injEq] at this
    subst this
    exact h2 y (by simp)

end Verif.MPS
