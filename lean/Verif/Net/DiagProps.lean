import Verif.Net.Diag
import Mathlib.Algebra.BigOperators.Group.List.Basic

/-!
# Correctness of products with diagonal ITensors
-/

namespace Verif.Net

open Verif.Tensor Verif.Tensor.Range Verif.Index Verif.Index.IndexSet Finset

variable {K : Type*} [CommRing K] [DecidableEq K]

/-! ## Strides as functions of the index -/

omit [CommRing K] [DecidableEq K] in
theorem exists_stride_from (is : IndexSet) (h : (keys is).Nodup) (s : Nat) :
    ∃ S : Key → Nat, initFrom s (is.map (·.dim)) = is.map fun i => ⟨i.dim, S i.key⟩ := by
  induction is generalizing s with
  | nil => exact ⟨fun _ => 0, rfl⟩
  | cons i is ih =>
    simp only [keys, List.map_cons, List.nodup_cons] at h
    obtain ⟨S, hS⟩ := ih h.2 (s * i.dim)
    refine ⟨Function.update S i.key s, ?_⟩
    simp only [List.map_cons, initFrom, Function.update_self, hS, List.cons.injEq, true_and]
    apply List.map_congr_left
    intro j hj
    rw [Function.update_of_ne]
    intro e
    exact h.1 (List.mem_map.2 ⟨j, hj, e⟩)

theorem exists_stride (is : IndexSet) (h : (keys is).Nodup) :
    ∃ S : Key → Nat, init (is.map (·.dim)) = (is.map fun i => ⟨i.dim, S i.key⟩) ∧
      ∀ f : Key → Nat, rank (is.map (·.dim)) (is.map fun i => f i.key) = (is.map fun i => f i.key * S i.key).sum := by
  obtain ⟨S, hS⟩ := exists_stride_from is h 1
  refine ⟨S, hS, fun f => ?_⟩
  rw [← addr_init (by simp), init, hS]
  clear hS h
  induction is with
  | nil => simp
  | cons i is ih => simp only [List.map_cons, addr_cons, List.sum_cons, ih, Nat.mul_comm]

theorem stride_pos_from (is : IndexSet) (hp : ∀ i ∈ is, 0 < i.dim) (s : Nat) (hs : 0 < s) :
    ∀ r ∈ initFrom s (is.map (·.dim)), 0 < r.str := by
  induction is generalizing s with
  | nil => simp [initFrom]
  | cons i is ih =>
    simp only [List.map_cons, initFrom, List.mem_cons, forall_eq_or_imp]
    exact ⟨hs, ih (fun j hj => hp j (by simp [hj])) _ (Nat.mul_pos hs (hp i (by simp)))⟩

/-! ## Accumulation -/

omit [DecidableEq K] in
theorem runSteps_ok {nB nC : Nat} {B : Int → K} : ∀ (l : List (Int × Int × K)) (m : Int → K),
    (∀ s ∈ l, 0 ≤ s.1 ∧ s.1 < nC ∧ 0 ≤ s.2.1 ∧ s.2.1 < nB) →
    ∃ m', runSteps nB nC B l m = .ok m' ∧ ∀ x, m' x = m x + (l.map fun s => if s.1 = x then s.2.2 * B s.2.1 else 0).sum := by
  intro l
  induction l with
  | nil => intro m _; exact ⟨m, rfl, by simp⟩
  | cons s l ih =>
    intro m h
    obtain ⟨c, b, a⟩ := s
    obtain ⟨m', h1, h2⟩ := ih (Function.update m c (m c + a * B b)) fun s hs => h s (by simp [hs])
    have h0 := h (c, b, a) (by simp)
    refine ⟨m', ?_, fun x => ?_⟩
    · rw [runSteps, if_pos h0]; exact h1
    · rw [h2]
      simp only [List.map_cons, List.sum_cons]
      by_cases hx : x = c
      · subst hx; simp [add_assoc]
      · rw [Function.update_of_ne hx, if_neg (Ne.symm hx)]; simp

/-! ## The product with a diagonal tensor -/

omit [DecidableEq K] in
theorem sumOver_sum {X ι : Type*} [DecidableEq X] (ext : X → Nat) (S : Finset ι) (F : ι → (X → Nat) → K) :
    ∀ (cs : List X) (ρ : X → Nat), sumOver ext cs (fun σ => ∑ J ∈ S, F J σ) ρ = ∑ J ∈ S, sumOver ext cs (F J) ρ := by
  intro cs
  induction cs with
  | nil => intro ρ; rfl
  | cons c cs ih => intro ρ; simp only [sumOver, ih]; exact sum_comm

omit [DecidableEq K] in
theorem sumOver_delta {X : Type*} [DecidableEq X] (ext : X → Nat) (J : Nat) (H : (X → Nat) → K) :
    ∀ (cs : List X) (ρ : X → Nat), cs.Nodup → (∀ k ∈ cs, J < ext k) →
      sumOver ext cs (fun σ => if ∀ k ∈ cs, σ k = J then H σ else 0) ρ = H fun k => if k ∈ cs then J else ρ k := by
  have gen : ∀ (cs : List X) (ρ : X → Nat) (P : (X → Nat) → Prop) [DecidablePred P], cs.Nodup → (∀ k ∈ cs, J < ext k) →
      (∀ σ σ', (∀ k, k ∉ cs → σ k = σ' k) → (P σ ↔ P σ')) →
      sumOver ext cs (fun σ => if P σ ∧ ∀ k ∈ cs, σ k = J then H σ else 0) ρ =
        if P ρ then H fun k => if k ∈ cs then J else ρ k else 0 := by
    intro cs
    induction cs with
    | nil => intro ρ P _ _ _ _; simp [sumOver]
    | cons c cs ih =>
      intro ρ P _ hnd hJ hP
      simp only [sumOver]
      have hnd' := List.nodup_cons.1 hnd
      have step : ∀ v, sumOver ext cs (fun σ => if P σ ∧ ∀ k ∈ c :: cs, σ k = J then H σ else 0) (Function.update ρ c v) =
          if P ρ ∧ v = J then H (fun k => if k ∈ c :: cs then J else ρ k) else 0 := by
        intro v
        have h1 := ih (Function.update ρ c v) (fun σ => P σ ∧ σ c = J) hnd'.2 (fun k hk => hJ k (by simp [hk])) (by
          intro σ σ' h
          rw [h c hnd'.1]
          -- `P` may depend on `c` but not on `cs`
          constructor
          · rintro ⟨hp, he⟩
            exact ⟨(hP σ σ' fun k hk => h k fun hk' => hk (by simp [hk'])).1 hp, he⟩
          · rintro ⟨hp, he⟩
            exact ⟨(hP σ σ' fun k hk => h k fun hk' => hk (by simp [hk'])).2 hp, he⟩)
        have e1 : (fun σ : X → Nat => if P σ ∧ ∀ k ∈ c :: cs, σ k = J then H σ else 0) =
            fun σ => if (P σ ∧ σ c = J) ∧ ∀ k ∈ cs, σ k = J then H σ else 0 := by
          funext σ
          simp only [List.mem_cons, forall_eq_or_imp, and_assoc]
        rw [e1, h1, Function.update_self]
        have e2 : P (Function.update ρ c v) ↔ P ρ := hP _ _ fun k hk => by
          rw [Function.update_of_ne]; rintro rfl; exact hk (by simp)
        simp only [e2]
        by_cases hc : P ρ ∧ v = J
        · rw [if_pos hc, if_pos hc]
          congr 1
          funext k
          by_cases hk : k ∈ cs
          · simp [hk]
          · by_cases hkc : k = c
            · subst hkc; simp [hk, hc.2]
            · simp [hk, hkc, Function.update_of_ne hkc]
        · rw [if_neg hc, if_neg hc]
      simp only [step]
      by_cases hPρ : P ρ
      · simp only [hPρ, true_and, if_true]
        rw [sum_ite_eq' (range (ext c)) J, if_pos (mem_range.2 (hJ c (by simp)))]
      · simp [hPρ]
  intro cs ρ h1 h2
  have := gen cs ρ (fun _ => True) h1 h2 (by simp)
  simpa using this

omit [DecidableEq K] in
theorem sumOver_zero {X : Type*} [DecidableEq X] (ext : X → Nat) : ∀ (cs : List X) (ρ : X → Nat),
    sumOver ext cs (fun _ => (0 : K)) ρ = 0 := by
  intro cs
  induction cs with
  | nil => intro ρ; rfl
  | cons c cs ih => intro ρ; simp only [sumOver, ih, sum_const_zero]

omit [DecidableEq K] in
theorem diag_sum {ext : Key → Nat} {d : DG K} (hd : d.OK ext) {T : Ten Key K} (hT : T.OK) (cs : List Key) (hcs : cs.Nodup)
    (hm : ∀ k, k ∈ cs ↔ k ∈ keys d.is ∧ k ∈ T.inds) (σ : Key → Nat) :
    sumOver ext cs (fun τ => d.sem.val τ * T.val τ) σ =
      ∑ J ∈ range d.length, if ∀ k ∈ keys d.is, k ∉ T.inds → σ k = J then
        d.at' J * T.val (fun k => if k ∈ keys d.is then J else σ k) else 0 := by
  have e1 : (fun τ : Key → Nat => d.sem.val τ * T.val τ) =
      fun τ => ∑ J ∈ range d.length, if ∀ k ∈ keys d.is, τ k = J then d.at' J * T.val τ else 0 := by
    funext τ
    simp only [DG.sem, sum_mul]
    exact sum_congr rfl fun J _ => by split <;> simp
  rw [e1, sumOver_sum]
  refine sum_congr rfl fun J hJ => ?_
  have hJl : ∀ k ∈ cs, J < ext k := by
    intro k hk
    obtain ⟨i, hi, rfl⟩ := List.mem_map.1 ((hm k).1 hk).1
    have := hd.le i hi
    rw [← hd.is.dims i hi]
    have := mem_range.1 hJ
    omega
  by_cases hc : ∀ k ∈ keys d.is, k ∉ T.inds → σ k = J
  · rw [if_pos hc]
    have := sumOver_delta ext J (fun τ => d.at' J * T.val τ) cs σ hcs hJl
    refine Eq.trans (sumOver_congr ext cs σ fun τ hτ => ?_) (this.trans ?_)
    · by_cases h1 : ∀ k ∈ keys d.is, τ k = J
      · rw [if_pos h1, if_pos fun k hk => h1 k ((hm k).1 hk).1]
      · rw [if_neg h1, if_neg]
        intro h2
        apply h1
        intro k hk
        by_cases hkT : k ∈ T.inds
        · exact h2 k ((hm k).2 ⟨hk, hkT⟩)
        · rw [hτ k fun h => hkT ((hm k).1 h).2]; exact hc k hk hkT
    · congr 1
      apply hT.dep
      intro k hk
      by_cases hkd : k ∈ keys d.is
      · rw [if_pos ((hm k).2 ⟨hkd, hk⟩), if_pos hkd]
      · rw [if_neg fun h => hkd ((hm k).1 h).1, if_neg hkd]
  · rw [if_neg hc]
    refine Eq.trans (sumOver_congr ext cs σ fun τ hτ => ?_) (sumOver_zero ext cs σ)
    rw [if_neg]
    intro h1
    apply hc
    intro k hk hkT
    rw [← h1 k hk, hτ k fun h => hkT ((hm k).1 h).2]

/-- The element of the product at `σ`. -/
def prodVal' (d : DG K) (T : Ten Key K) (σ : Key → Nat) : K :=
  ∑ J ∈ range d.length, if ∀ k ∈ keys d.is, k ∉ T.inds → σ k = J then
    d.at' J * T.val (fun k => if k ∈ keys d.is then J else σ k) else 0

omit [CommRing K] [DecidableEq K] in
theorem mem_shared {X : Type*} [DecidableEq X] {A B : List X} {k : X} : k ∈ A.filter (· ∈ B) ↔ k ∈ A ∧ k ∈ B := by simp

omit [DecidableEq K] in
theorem mul_diag_left {ext : Key → Nat} {d : DG K} (hd : d.OK ext) {T : Ten Key K} (hT : T.OK) (σ : Key → Nat) :
    (mul ext d.sem T).val σ = prodVal' d T σ :=
  diag_sum hd hT _ (hd.is.nodup.filter _) (by intro k; simp) σ

omit [DecidableEq K] in
theorem mul_diag_right {ext : Key → Nat} {d : DG K} (hd : d.OK ext) {T : Ten Key K} (hT : T.OK) (σ : Key → Nat) :
    (mul ext T d.sem).val σ = prodVal' d T σ := by
  simp only [mul]
  have : (fun τ : Key → Nat => T.val τ * d.sem.val τ) = fun τ => d.sem.val τ * T.val τ := by
    funext τ; exact mul_comm _ _
  rw [this]
  refine diag_sum hd hT _ (hT.nodup.filter _) (fun k => ?_) σ
  exact mem_shared.trans and_comm

omit [CommRing K] [DecidableEq K] in
theorem DS.sem_ok {ext : Key → Nat} {t : DS K} (h : t.OK ext) : t.sem.OK := by
  refine ⟨h.is.nodup, fun σ τ hst => ?_⟩
  simp only [sem]
  congr 3
  apply List.map_congr_left
  intro i hi
  exact hst _ (List.mem_map_of_mem hi)

/-! ## The loops -/

omit [CommRing K] [DecidableEq K] in
theorem zip_lab (X : IndexSet) (S : Key → Nat) (lab : Key → Int) :
    (X.map fun i => (⟨i.dim, S i.key⟩ : IndStr)).zip ((keys X).map lab) = X.map fun i => ((⟨i.dim, S i.key⟩ : IndStr), lab i.key) := by
  induction X with
  | nil => rfl
  | cons x X ih => simp only [keys, List.map_cons, List.zip_cons_cons] at ih ⊢; rw [ih]

theorem find_lab {X : IndexSet} {lab : Key → Int} (hnd : (X.map fun i => lab i.key).Nodup) {i : Index} (hi : i ∈ X) (S : Key → Nat) :
    ((X.map fun i => (⟨i.dim, S i.key⟩ : IndStr)).getD (findIndex (X.map fun i => lab i.key) (lab i.key)).toNat ⟨0, 0⟩).str = S i.key := by
  obtain ⟨p, hp, rfl⟩ := List.mem_iff_getElem.1 hi
  rw [findIndex_eq_of_get hnd (k := p) (by simp [hp])]
  simp [List.getD_eq_getElem?_getD, hp]

/-- Values for the indices of `U` as a function of the index. -/
theorem exists_assign (U : IndexSet) (h : (keys U).Nodup) (u : List Nat) (hu : u.length = U.length) :
    ∃ f : Key → Nat, u = U.map fun i => f i.key := by
  induction U generalizing u with
  | nil => exact ⟨fun _ => 0, by simpa using hu⟩
  | cons i U ih =>
    cases u with
    | nil => simp at hu
    | cons x u =>
      simp only [keys, List.map_cons, List.nodup_cons] at h
      obtain ⟨f, hf⟩ := ih h.2 u (by simpa using hu)
      refine ⟨Function.update f i.key x, ?_⟩
      simp only [List.map_cons, Function.update_self, List.cons.injEq, true_and]
      rw [hf]
      apply List.map_congr_left
      intro j hj
      rw [Function.update_of_ne]
      intro e
      exact h.1 (List.mem_map.2 ⟨j, hj, e⟩)

theorem dot_map (U : IndexSet) (f S : Key → Nat) :
    dot ((U.map fun i => f i.key).map fun (x : Nat) => (x : Int)) (U.map fun i => S i.key) = ((U.map fun i => f i.key * S i.key).sum : Nat) := by
  induction U with
  | nil => simp [dot]
  | cons i U ih =>
    simp only [dot, List.map_cons, List.zipWith_cons_cons, List.sum_cons] at ih ⊢
    rw [ih]; push_cast; rfl

theorem sum_mul_const (V : IndexSet) (J : Nat) (S : Key → Nat) : (V.map fun i => J * S i.key).sum = J * (V.map fun i => S i.key).sum := by
  induction V with
  | nil => simp
  | cons i V ih => simp only [List.map_cons, List.sum_cons, ih, Nat.mul_add]

theorem valid_dims {X : IndexSet} {f : Key → Nat} (h : ∀ i ∈ X, f i.key < i.dim) : Valid (X.map (·.dim)) (X.map fun i => f i.key) := by
  induction X with
  | nil => exact .nil
  | cons i X ih => exact .cons (h i (by simp)) (ih fun j hj => h j (by simp [hj]))

theorem map_key_inj {X : IndexSet} {f g : Key → Nat} : (X.map fun i => f i.key) = (X.map fun i => g i.key) ↔ ∀ i ∈ X, f i.key = g i.key := by
  rw [List.map_inj_left]

theorem rank_inj_dims {X : IndexSet} {f g : Key → Nat} (hf : ∀ i ∈ X, f i.key < i.dim) (hg : ∀ i ∈ X, g i.key < i.dim) :
    rank (X.map (·.dim)) (X.map fun i => f i.key) = rank (X.map (·.dim)) (X.map fun i => g i.key) ↔ ∀ i ∈ X, f i.key = g i.key := by
  rw [← map_key_inj]
  constructor
  · intro h
    rw [← unrank_rank (valid_dims hf), h, unrank_rank (valid_dims hg)]
  · intro h; rw [h]

omit [CommRing K] [DecidableEq K] in
theorem DG.OK.size {ext : Key → Nat} {d : DG K} (h : d.OK ext) : d.size = d.length := by
  unfold DG.size
  rcases h.store with h | h
  · simp [h]
  · split <;> [rfl; exact h]

/-- Addresses of the elements which the loops touch. -/
theorem offset_split {X : IndexSet} (S : Key → Nat) (p : Index → Bool) (J : Nat) (f : Key → Nat) (g : Key → Nat)
    (h1 : ∀ i ∈ X, p i = true → g i.key = J) (h2 : ∀ i ∈ X, p i = false → g i.key = f i.key) :
    (X.map fun i => g i.key * S i.key).sum =
      J * ((X.filter p).map fun i => S i.key).sum + ((X.filter fun i => !p i).map fun i => f i.key * S i.key).sum := by
  induction X with
  | nil => simp
  | cons i X ih =>
    have ih := ih (fun j hj => h1 j (by simp [hj])) (fun j hj => h2 j (by simp [hj]))
    simp only [List.map_cons, List.sum_cons, ih]
    cases hp : p i
    · rw [h2 i (by simp) hp]
      simp only [List.filter_cons, hp, Bool.false_eq_true, if_false, Bool.not_false, if_true, List.map_cons, List.sum_cons]
      omega
    · rw [h1 i (by simp) hp]
      simp only [List.filter_cons, hp, Bool.false_eq_true, if_false, Bool.not_true, if_true, List.map_cons, List.sum_cons, Nat.mul_add]
      omega

/-- Labels of two sets of indices: equal for equal indices only, negative for the common ones, otherwise positive. -/
structure LabOK (lab : Key → Int) (D T : IndexSet) : Prop where
  inj : ∀ k k', (k ∈ keys D ∨ k ∈ keys T) → (k' ∈ keys D ∨ k' ∈ keys T) → lab k = lab k' → k = k'
  sign : ∀ k, (k ∈ keys D ∨ k ∈ keys T) → lab k ≠ 0 ∧ (lab k < 0 ↔ k ∈ keys D ∧ k ∈ keys T)

theorem LabOK.mem {lab : Key → Int} {D T : IndexSet} (h : LabOK lab D T) {k : Key} (hk : k ∈ keys D ∨ k ∈ keys T) :
    lab k ∈ (keys D).map lab ↔ k ∈ keys D := by
  constructor
  · intro hm
    obtain ⟨k', h1, h2⟩ := List.mem_map.1 hm
    rw [← h.inj k' k (Or.inl h1) hk h2]; exact h1
  · exact fun hm => List.mem_map_of_mem hm

theorem LabOK.find {lab : Key → Int} {D T : IndexSet} (h : LabOK lab D T) {k : Key} (hk : k ∈ keys D ∨ k ∈ keys T) :
    findIndex ((keys D).map lab) (lab k) < 0 ↔ k ∉ keys D := by
  rw [findIndex_neg, h.mem hk]

omit [CommRing K] [DecidableEq K] in
theorem filter_lab {X : IndexSet} {S : Key → Nat} {lab : Key → Int} (q : Int → Bool) (p : Index → Bool)
    (h : ∀ i ∈ X, q (lab i.key) = p i) :
    (X.map fun i => ((⟨i.dim, S i.key⟩ : IndStr), lab i.key)).filter (fun x => q x.2) =
      (X.filter p).map fun i => ((⟨i.dim, S i.key⟩ : IndStr), lab i.key) := by
  rw [List.filter_map]
  congr 1
  exact List.filter_congr fun i hi => h i hi

theorem forEach_ofExtents (ds : List Nat) (hne : ds ≠ []) (hpos : ∀ x ∈ ds, 0 < x) (fuel : Nat) (hf : ds.prod < fuel) :
    ∃ gs, GCounter.forEach fuel (GCounter.ofExtents ds) = some (.ok gs) ∧
      gs.map (·.i) = (allInds ds).map fun u => u.map fun (x : Nat) => (x : Int) := by
  obtain ⟨gs, hgs, hgi, _⟩ := C15_gcounter (ds.map fun _ => 0) ds (by simp) hne hpos fuel hf
  refine ⟨gs, ?_, ?_⟩
  · rw [← hgs, GCounter.ofExtents]
    congr 2
    have : ∀ ds : List Nat, ds.map (fun (d : Nat) => (d : Int) - 1) =
        List.zipWith (fun (f : Int) (d : Nat) => f + (d : Int) - 1) (ds.map fun _ => 0) ds := by
      intro ds
      induction ds with
      | nil => rfl
      | cons d ds ih => simp only [List.map_cons, List.zipWith_cons_cons, ih, Int.zero_add]
    exact this ds
  · rw [hgi]
    apply List.map_congr_left
    intro u hu
    have hlen := valid_length (mem_allInds.1 hu)
    apply List.ext_getElem
    · simp [hlen]
    · intro n h1 h2; simp

omit [DecidableEq K] in
theorem sum_map_range (n : Nat) (f : Nat → K) : ((List.range n).map f).sum = ∑ J ∈ range n, f J := by
  induction n with
  | zero => simp
  | succ n ih => rw [List.range_succ, List.map_append, List.sum_append, ih, sum_range_succ]; simp

omit [DecidableEq K] in
theorem sum_flatMap' {α : Type*} (l : List α) (f : α → List K) : (l.flatMap f).sum = (l.map fun a => (f a).sum).sum := by
  induction l with
  | nil => rfl
  | cons a l ih => simp only [List.flatMap_cons, List.sum_append, List.map_cons, List.sum_cons, ih]

omit [DecidableEq K] in
theorem sum_single {α : Type*} [DecidableEq α] {l : List α} (hnd : l.Nodup) {a : α} (ha : a ∈ l) (x : K) :
    (l.map fun b => if b = a then x else 0).sum = x := by
  induction l with
  | nil => simp at ha
  | cons b l ih =>
    rw [List.nodup_cons] at hnd
    simp only [List.map_cons, List.sum_cons]
    by_cases hb : b = a
    · subst hb
      rw [if_pos rfl]
      have : (l.map fun c => if c = b then x else 0).sum = 0 := by
        apply List.sum_eq_zero
        intro y hy
        obtain ⟨c, hc, rfl⟩ := List.mem_map.1 hy
        rw [if_neg]; rintro rfl; exact hnd.1 hc
      rw [this, add_zero]
    · rw [if_neg hb, zero_add]
      exact ih hnd.2 ((List.mem_cons.1 ha).resolve_left (Ne.symm hb))

/-- `contractDiagPartial` gives the elements of the product, with all accesses in bounds. -/
theorem partial_ok {ext : Key → Nat} {d : DG K} {t : DS K} (hd : d.OK ext) (ht : t.OK ext) {lab : Key → Int}
    (hl : LabOK lab d.is t.is) {Nis : IndexSet}
    (hN : Nis.Perm (t.is.filter (fun i => decide (i.key ∉ keys d.is)) ++ d.is.filter (fun i => decide (i.key ∉ keys t.is))))
    (hU : t.is.filter (fun i => decide (i.key ∉ keys d.is)) ≠ []) (fuel : Nat) (hf : (t.is.map (·.dim)).prod < fuel) :
    ∃ m, contractDiagPartial fuel d.size d.at' ((keys d.is).map lab) (init (t.is.map (·.dim))) t.size t.mem ((keys t.is).map lab)
        (init (Nis.map (·.dim))) (Nis.map (·.dim)).prod (fun _ => 0) ((keys Nis).map lab) = some (.ok m) ∧
      ∀ σ : Key → Nat, (∀ i ∈ Nis, σ i.key < i.dim) →
        m (rank (Nis.map (·.dim)) (Nis.map fun i => σ i.key) : Nat) = prodVal' d t.sem σ := by
  set U := t.is.filter (fun i => decide (i.key ∉ keys d.is)) with hUd
  set V := d.is.filter (fun i => decide (i.key ∉ keys t.is)) with hVd
  have mU : ∀ i, i ∈ U ↔ i ∈ t.is ∧ i.key ∉ keys d.is := by intro i; simp [hUd]
  have mV : ∀ i, i ∈ V ↔ i ∈ d.is ∧ i.key ∉ keys t.is := by intro i; simp [hVd]
  have mN : ∀ i, i ∈ Nis ↔ i ∈ U ∨ i ∈ V := by intro i; rw [hN.mem_iff, List.mem_append]
  have kd : ∀ i, i ∈ d.is → i.key ∈ keys d.is := fun i hi => List.mem_map_of_mem hi
  have kt : ∀ i, i ∈ t.is → i.key ∈ keys t.is := fun i hi => List.mem_map_of_mem hi
  have kN : ∀ i ∈ Nis, i.key ∈ keys d.is ∨ i.key ∈ keys t.is := by
    intro i hi
    rcases (mN i).1 hi with h | h
    · exact Or.inr (kt i ((mU i).1 h).1)
    · exact Or.inl (kd i ((mV i).1 h).1)
  have ndU : (keys U).Nodup := ht.is.nodup.sublist (List.filter_sublist.map _)
  have ndV : (keys V).Nodup := hd.is.nodup.sublist (List.filter_sublist.map _)
  have ndN : (keys Nis).Nodup := by
    have : (keys Nis).Perm (keys U ++ keys V) := by
      have := hN.map Index.key
      simpa [keys] using this
    rw [this.nodup_iff, List.nodup_append]
    refine ⟨ndU, ndV, ?_⟩
    intro a ha b hb e
    obtain ⟨i, hi, rfl⟩ := List.mem_map.1 ha
    obtain ⟨j, hj, rfl⟩ := List.mem_map.1 hb
    exact ((mV j).1 hj).2 (e ▸ kt i ((mU i).1 hi).1)
  have ndNl : (Nis.map fun i => lab i.key).Nodup := by
    have : ((keys Nis).map lab).Nodup := by
      refine ndN.map_on ?_
      intro k hk k' hk' e
      obtain ⟨i, hi, rfl⟩ := List.mem_map.1 hk
      obtain ⟨j, hj, rfl⟩ := List.mem_map.1 hk'
      exact hl.inj _ _ (kN i hi) (kN j hj) e
    rwa [keys, List.map_map] at this
  have posN : ∀ i ∈ Nis, 0 < i.dim := by
    intro i hi
    rcases (mN i).1 hi with h | h
    · exact ht.is.pos i ((mU i).1 h).1
    · exact hd.is.pos i ((mV i).1 h).1
  obtain ⟨St, hSt, rT⟩ := exists_stride t.is ht.is.nodup
  obtain ⟨Sn, hSn, rN⟩ := exists_stride Nis ndN
  let pd : Index → Bool := fun i => decide (i.key ∈ keys d.is)
  have npd : ∀ X : IndexSet, X.filter (fun i => !pd i) = X.filter fun i => decide (i.key ∉ keys d.is) := by
    intro X; apply List.filter_congr; intro i _; simp [pd]
  have b1 : (((init (t.is.map (·.dim))).zip ((keys t.is).map lab)).filter fun p => decide (findIndex ((keys d.is).map lab) p.2 ≥ 0)) =
      (t.is.filter pd).map fun i => ((⟨i.dim, St i.key⟩ : IndStr), lab i.key) := by
    rw [hSt, zip_lab]
    refine filter_lab (fun x => decide (findIndex ((keys d.is).map lab) x ≥ 0)) pd fun i hi => ?_
    have := hl.find (k := i.key) (Or.inr (kt i hi))
    simp only [pd, decide_eq_decide]
    constructor
    · intro h; by_contra h'; have := this.2 h'; omega
    · intro h; by_contra h'; exact this.1 (by omega) h
  have b2 : (((init (t.is.map (·.dim))).zip ((keys t.is).map lab)).filter fun p => decide (findIndex ((keys d.is).map lab) p.2 < 0)) =
      U.map fun i => ((⟨i.dim, St i.key⟩ : IndStr), lab i.key) := by
    rw [hSt, zip_lab]
    refine filter_lab (fun x => decide (findIndex ((keys d.is).map lab) x < 0)) _ fun i hi => ?_
    exact decide_eq_decide.2 (hl.find (Or.inr (kt i hi)))
  have b3 : (((init (t.is.map (·.dim))).zip ((keys t.is).map lab)).filter fun p => decide (p.2 > 0)) =
      U.map fun i => ((⟨i.dim, St i.key⟩ : IndStr), lab i.key) := by
    rw [hSt, zip_lab]
    refine filter_lab (fun x => decide (x > 0)) _ fun i hi => ?_
    have := hl.sign i.key (Or.inr (kt i hi))
    refine decide_eq_decide.2 ⟨fun h hm => ?_, fun h => ?_⟩
    · have := this.2.2 ⟨hm, kt i hi⟩; omega
    · have h2 : ¬ lab i.key < 0 := fun h' => h (this.2.1 h').1
      have := this.1; omega
  have c1 : (((init (Nis.map (·.dim))).zip ((keys Nis).map lab)).filter fun p => decide (findIndex ((keys d.is).map lab) p.2 ≥ 0)) =
      (Nis.filter pd).map fun i => ((⟨i.dim, Sn i.key⟩ : IndStr), lab i.key) := by
    rw [hSn, zip_lab]
    refine filter_lab (fun x => decide (findIndex ((keys d.is).map lab) x ≥ 0)) pd fun i hi => ?_
    have := hl.find (k := i.key) (kN i hi)
    simp only [pd, decide_eq_decide]
    constructor
    · intro h; by_contra h'; have := this.2 h'; omega
    · intro h; by_contra h'; exact this.1 (by omega) h
  have kl : (keys Nis).map lab = Nis.map fun i => lab i.key := by simp [keys]
  have cus : (U.map fun i => ((⟨i.dim, St i.key⟩ : IndStr), lab i.key)).map
      (fun p => ((init (Nis.map (·.dim))).getD (findIndex ((keys Nis).map lab) p.2).toNat ⟨0, 0⟩).str) = U.map fun i => Sn i.key := by
    rw [List.map_map]
    apply List.map_congr_left
    intro i hi
    simp only [Function.comp]
    rw [hSn, kl]
    exact find_lab ndNl ((mN i).2 (Or.inl hi)) Sn
  have hany : ((U.map fun i => ((⟨i.dim, St i.key⟩ : IndStr), lab i.key)).any
      fun p => decide (findIndex ((keys Nis).map lab) p.2 < 0)) = false := by
    rw [List.any_eq_false]
    intro p hp
    obtain ⟨i, hi, rfl⟩ := List.mem_map.1 hp
    simp only [decide_eq_true_eq]
    rw [findIndex_neg, not_not, kl]
    exact List.mem_map.2 ⟨i, (mN i).2 (Or.inl hi), rfl⟩
  have posU : ∀ x ∈ U.map (·.dim), 0 < x := by
    intro x hx
    obtain ⟨i, hi, rfl⟩ := List.mem_map.1 hx
    exact ht.is.pos i ((mU i).1 hi).1
  have hfU : (U.map (·.dim)).prod < fuel := by
    refine lt_of_le_of_lt ?_ hf
    have := (List.filter_append_perm (fun i : Index => decide (i.key ∉ keys d.is)) t.is).map (·.dim)
    rw [← this.prod_eq, List.map_append, List.prod_append]
    refine Nat.le_mul_of_pos_right _ ?_
    apply Nat.pos_of_ne_zero
    rw [Ne, List.prod_eq_zero_iff]
    intro h0
    obtain ⟨i, hi, e⟩ := List.mem_map.1 h0
    have := ht.is.pos i (List.mem_filter.1 hi).1
    omega
  obtain ⟨gs, hgs, hgi⟩ := forEach_ofExtents (U.map (·.dim)) (by simpa using hU) posU fuel hfU
  -- the accesses
  let steps : List (Int × Int × K) := (allInds (U.map (·.dim))).flatMap fun u => (List.range d.length).map fun (J : Nat) =>
    (((J * ((Nis.filter pd).map fun i => Sn i.key).sum : Nat) : Int) + dot (u.map fun (x : Nat) => (x : Int)) (U.map fun i => Sn i.key),
      ((J * ((t.is.filter pd).map fun i => St i.key).sum : Nat) : Int) + dot (u.map fun (x : Nat) => (x : Int)) (U.map fun i => St i.key), d.at' J)
  -- values of all indices in a round
  have hasg : ∀ u ∈ allInds (U.map (·.dim)), ∃ f : Key → Nat, u = U.map fun i => f i.key := by
    intro u hu
    exact exists_assign U ndU u (by simpa using valid_length (mem_allInds.1 hu))
  let gv : (Key → Nat) → Nat → Key → Nat := fun f J k => if k ∈ keys d.is then J else f k
  have caddr : ∀ (f : Key → Nat) (J : Nat),
      ((J * ((Nis.filter pd).map fun i => Sn i.key).sum : Nat) : Int) +
        dot ((U.map fun i => f i.key).map fun (x : Nat) => (x : Int)) (U.map fun i => Sn i.key) =
      (rank (Nis.map (·.dim)) (Nis.map fun i => gv f J i.key) : Nat) := by
    intro f J
    rw [dot_map, rN, offset_split Sn pd J f (gv f J) (fun i _ h => by simp only [gv]; rw [if_pos (by simpa [pd] using h)])
      (fun i _ h => by simp only [gv]; rw [if_neg (by simpa [pd] using h)])]
    have hp : (Nis.filter fun i => !pd i).Perm U := by
      refine (hN.filter _).trans ?_
      rw [List.filter_append]
      have e1 : U.filter (fun i => !pd i) = U := List.filter_eq_self.2 fun i hi => by simpa [pd] using ((mU i).1 hi).2
      have e2 : V.filter (fun i => !pd i) = [] := List.filter_eq_nil_iff.2 fun i hi => by simpa [pd] using kd i ((mV i).1 hi).1
      rw [e1, e2, List.append_nil]
    rw [(hp.map fun i => f i.key * Sn i.key).sum_eq]
    push_cast; rfl
  have baddr : ∀ (f : Key → Nat) (J : Nat),
      ((J * ((t.is.filter pd).map fun i => St i.key).sum : Nat) : Int) +
        dot ((U.map fun i => f i.key).map fun (x : Nat) => (x : Int)) (U.map fun i => St i.key) =
      (rank (t.is.map (·.dim)) (t.is.map fun i => gv f J i.key) : Nat) := by
    intro f J
    rw [dot_map, rT, offset_split St pd J f (gv f J) (fun i _ h => by simp only [gv]; rw [if_pos (by simpa [pd] using h)])
      (fun i _ h => by simp only [gv]; rw [if_neg (by simpa [pd] using h)]), npd]
    push_cast; rfl
  have bdT : ∀ (f : Key → Nat) (J : Nat), J < d.length → (∀ i ∈ U, f i.key < i.dim) → ∀ i ∈ t.is, gv f J i.key < i.dim := by
    intro f J hJ hfb i hi
    by_cases h : i.key ∈ keys d.is
    · simp only [gv, if_pos h]
      obtain ⟨j, hj, e⟩ := List.mem_map.1 h
      have h1 := hd.le j hj
      have h2 := hd.is.dims j hj
      have h3 := ht.is.dims i hi
      rw [e] at h2
      omega
    · simp only [gv, if_neg h]; exact hfb i ((mU i).2 ⟨hi, h⟩)
  have bdN : ∀ (f : Key → Nat) (J : Nat), J < d.length → (∀ i ∈ U, f i.key < i.dim) → ∀ i ∈ Nis, gv f J i.key < i.dim := by
    intro f J hJ hfb i hi
    rcases (mN i).1 hi with h | h
    · simp only [gv, if_neg ((mU i).1 h).2]; exact hfb i h
    · simp only [gv, if_pos (kd i ((mV i).1 h).1)]
      have := hd.le i ((mV i).1 h).1
      omega
  have ubd : ∀ (f : Key → Nat), (U.map fun i => f i.key) ∈ allInds (U.map (·.dim)) → ∀ i ∈ U, f i.key < i.dim := by
    intro f hf i hi
    have hv := mem_allInds.1 hf
    clear hf
    generalize U = X at hv hi
    induction X with
    | nil => simp at hi
    | cons j X ih =>
      cases hv with
      | cons h1 h2 =>
        rcases List.mem_cons.1 hi with rfl | h
        · exact h1
        · exact ih h2 h
  obtain ⟨m, hm, hval⟩ := runSteps_ok (nB := t.size) (nC := (Nis.map (·.dim)).prod) (B := t.mem) steps (fun _ => 0) (by
    intro s hs
    obtain ⟨u, hu, hs⟩ := List.mem_flatMap.1 hs
    obtain ⟨J, hJ, rfl⟩ := List.mem_map.1 hs
    obtain ⟨f, rfl⟩ := hasg u hu
    have hJ := List.mem_range.1 hJ
    simp only [caddr, baddr]
    have h1 := rank_lt (valid_dims (bdN f J hJ (ubd f hu)))
    have h2 := rank_lt (valid_dims (bdT f J hJ (ubd f hu)))
    rw [ht.size]
    refine ⟨by omega, by exact_mod_cast h1, by omega, by exact_mod_cast h2⟩)
  refine ⟨m, ?_, fun σ hσ => ?_⟩
  · unfold contractDiagPartial
    simp only [b1, b2, b3, c1, hany, List.length_map, ne_eq, not_true, false_or, Bool.false_eq_true, if_false, cus, List.map_map]
    have e0 : (U.map ((fun x : IndStr × Int => x.1.ind) ∘ fun i => ((⟨i.dim, St i.key⟩ : IndStr), lab i.key))) = U.map (·.dim) := rfl
    rw [e0, hgs]
    simp only [Run.bind]
    rw [hd.size, ← hm]
    congr 2
    simp only [steps]
    have : gs.flatMap (fun g => (List.range d.length).map fun (J : Nat) =>
        (((J * ((Nis.filter pd).map fun i => Sn i.key).sum : Nat) : Int) + dot g.i (U.map fun i => Sn i.key),
          ((J * ((t.is.filter pd).map fun i => St i.key).sum : Nat) : Int) + dot g.i (U.map fun i => St i.key), d.at' J)) =
      (gs.map (·.i)).flatMap (fun gi => (List.range d.length).map fun (J : Nat) =>
        (((J * ((Nis.filter pd).map fun i => Sn i.key).sum : Nat) : Int) + dot gi (U.map fun i => Sn i.key),
          ((J * ((t.is.filter pd).map fun i => St i.key).sum : Nat) : Int) + dot gi (U.map fun i => St i.key), d.at' J)) := by
      rw [List.flatMap_map]
    refine Eq.trans this ?_
    rw [hgi, List.flatMap_map]
  · rw [hval, zero_add]
    have hσU : (U.map fun i => σ i.key) ∈ allInds (U.map (·.dim)) :=
      mem_allInds.2 (valid_dims fun i hi => hσ i ((mN i).2 (Or.inl hi)))
    simp only [steps, List.map_flatMap]
    rw [sum_flatMap']
    refine Eq.trans ?_ (sum_single (allInds_nodup _) hσU (prodVal' d t.sem σ))
    congr 1
    apply List.map_congr_left
    intro u hu
    obtain ⟨f, rfl⟩ := hasg u hu
    have hfb := ubd f hu
    rw [List.map_map, sum_map_range]
    simp only [Function.comp, caddr, baddr, Nat.cast_inj]
    by_cases hfs : (U.map fun i => f i.key) = U.map fun i => σ i.key
    · rw [if_pos hfs]
      rw [map_key_inj] at hfs
      unfold prodVal'
      refine sum_congr rfl fun J hJ => ?_
      have hri := rank_inj_dims (bdN f J (mem_range.1 hJ) hfb) hσ
      have hiff : (∀ i ∈ Nis, gv f J i.key = σ i.key) ↔ ∀ k ∈ keys d.is, k ∉ t.sem.inds → σ k = J := by
        constructor
        · intro h k hk hkt
          obtain ⟨i, hi, rfl⟩ := List.mem_map.1 hk
          have := h i ((mN i).2 (Or.inr ((mV i).2 ⟨hi, hkt⟩)))
          simp only [gv, if_pos hk] at this
          exact this.symm
        · intro h i hi
          rcases (mN i).1 hi with h' | h'
          · simp only [gv, if_neg ((mU i).1 h').2]; exact hfs i h'
          · simp only [gv, if_pos (kd i ((mV i).1 h').1)]
            exact (h _ (kd i ((mV i).1 h').1) ((mV i).1 h').2).symm
      simp only [hri.trans hiff]
      split
      · congr 1
        simp only [DS.sem]
        congr 3
        apply List.map_congr_left
        intro i hi
        by_cases hk : i.key ∈ keys d.is
        · simp only [gv, if_pos hk]
        · simp only [gv, if_neg hk]; exact hfs i ((mU i).2 ⟨hi, hk⟩)
      · rfl
    · rw [if_neg hfs]
      refine sum_eq_zero fun J hJ => ?_
      rw [if_neg]
      rw [rank_inj_dims (bdN f J (mem_range.1 hJ) hfb) hσ]
      intro h
      apply hfs
      rw [map_key_inj]
      intro i hi
      have := h i ((mN i).2 (Or.inl hi))
      simpa only [gv, if_neg ((mU i).1 hi).2] using this

/-- `contractDiagFull` gives the elements on the diagonal, or their sum. -/
theorem full_ok {ext : Key → Nat} {d : DG K} {t : DS K} (hd : d.OK ext) (ht : t.OK ext) {lab : Key → Int}
    (hl : LabOK lab d.is t.is) (hU : ∀ i ∈ t.is, i.key ∈ keys d.is) (nC : Nat) (hn : nC = 1 ∨ nC = d.length) :
    ∃ m, contractDiagFull d.size d.at' ((keys d.is).map lab) (init (t.is.map (·.dim))) t.size t.mem ((keys t.is).map lab)
        nC (fun _ => 0) = .ok m ∧
      (nC = 1 → m 0 = ∑ J ∈ range d.length, d.at' J * t.sem.val fun _ => J) ∧
      (nC ≠ 1 → ∀ J : Nat, J < d.length → m J = d.at' J * t.sem.val fun _ => J) := by
  have kt : ∀ i, i ∈ t.is → i.key ∈ keys t.is := fun i hi => List.mem_map_of_mem hi
  obtain ⟨St, hSt, rT⟩ := exists_stride t.is ht.is.nodup
  have b1 : (((init (t.is.map (·.dim))).zip ((keys t.is).map lab)).filter fun p => decide (findIndex ((keys d.is).map lab) p.2 ≥ 0)) =
      t.is.map fun i => ((⟨i.dim, St i.key⟩ : IndStr), lab i.key) := by
    rw [hSt, zip_lab]
    refine List.filter_eq_self.2 fun p hp => ?_
    obtain ⟨i, hi, rfl⟩ := List.mem_map.1 hp
    have := hl.find (k := i.key) (Or.inr (kt i hi))
    rw [decide_eq_true_eq]
    dsimp only
    by_contra h'
    exact this.1 (by omega) (hU i hi)
  have baddr : ∀ J : Nat, J * ((t.is.map fun i => ((⟨i.dim, St i.key⟩ : IndStr), lab i.key)).map (·.1.str)).sum =
      rank (t.is.map (·.dim)) (t.is.map fun _ => J) := by
    intro J
    have := rT fun _ => J
    rw [this, sum_mul_const, List.map_map]; rfl
  have bd : ∀ J : Nat, J < d.length → rank (t.is.map (·.dim)) (t.is.map fun _ => J) < t.size := by
    intro J hJ
    rw [ht.size]
    refine rank_lt (valid_dims (f := fun _ => J) fun i hi => ?_)
    obtain ⟨j, hj, e⟩ := List.mem_map.1 (hU i hi)
    have h1 := hd.le j hj
    have h2 := hd.is.dims j hj
    have h3 := ht.is.dims i hi
    rw [e] at h2
    omega
  obtain ⟨m, hm, hval⟩ := runSteps_ok (nB := t.size) (nC := nC) (B := t.mem)
    ((List.range d.length).map fun (J : Nat) => (if nC = 1 then 0 else (J : Int), ((rank (t.is.map (·.dim)) (t.is.map fun _ => J) : Nat) : Int), d.at' J))
    (fun _ => 0) (by
      intro s hs
      obtain ⟨J, hJ, rfl⟩ := List.mem_map.1 hs
      have hJ := List.mem_range.1 hJ
      have := bd J hJ
      dsimp only
      refine ⟨?_, ?_, by omega, by omega⟩ <;> split <;> omega)
  refine ⟨m, ?_, fun h1 => ?_, fun h1 J hJ => ?_⟩
  · unfold contractDiagFull
    simp only [b1, baddr, hd.size]
    exact hm
  · rw [hval, zero_add, List.map_map, sum_map_range]
    refine sum_congr rfl fun J _ => ?_
    simp only [Function.comp, if_pos h1, if_true]
    rfl
  · rw [hval, zero_add, List.map_map, sum_map_range]
    simp only [Function.comp, if_neg h1, Nat.cast_inj]
    rw [sum_ite_eq' (range d.length) J, if_pos (mem_range.2 hJ)]
    rfl

/-- When the other tensor has no index left: an element off the diagonal is 0 ... -/
theorem prodVal'_off {d : DG K} {T : Ten Key K} {σ : Key → Nat} (h : ¬ ∃ J, J < d.length ∧ ∀ k ∈ keys d.is, k ∉ T.inds → σ k = J) :
    prodVal' d T σ = 0 := by
  unfold prodVal'
  refine sum_eq_zero fun J hJ => ?_
  rw [if_neg]
  exact fun hc => h ⟨J, mem_range.1 hJ, hc⟩

/-- ... and an element on the diagonal has one term. -/
theorem prodVal'_on {d : DG K} {T : Ten Key K} (hT : T.OK) (hU : ∀ k ∈ T.inds, k ∈ keys d.is) {σ : Key → Nat} {J : Nat} (hJ : J < d.length)
    (h : ∀ k ∈ keys d.is, k ∉ T.inds → σ k = J) (hne : ∃ k ∈ keys d.is, k ∉ T.inds) :
    prodVal' d T σ = d.at' J * T.val fun _ => J := by
  unfold prodVal'
  rw [sum_eq_single_of_mem J (mem_range.2 hJ), if_pos h]
  · congr 1
    exact hT.dep _ _ fun k hk => if_pos (hU k hk)
  · intro J' _ hne'
    rw [if_neg]
    intro h'
    obtain ⟨k, hk, hk'⟩ := hne
    exact hne' (by rw [← h' k hk hk', h k hk hk'])

theorem prodVal'_all {d : DG K} {T : Ten Key K} (hT : T.OK) (hU : ∀ k ∈ T.inds, k ∈ keys d.is) {σ : Key → Nat}
    (hV : ∀ k ∈ keys d.is, k ∈ T.inds) : prodVal' d T σ = ∑ J ∈ range d.length, d.at' J * T.val fun _ => J := by
  unfold prodVal'
  refine sum_congr rfl fun J _ => ?_
  rw [if_pos fun k hk hk' => absurd (hV k hk) hk']
  congr 1
  exact hT.dep _ _ fun k hk => if_pos (hU k hk)

/-- `contractDiagDense`. -/
theorem contractDiagDense_ok {ext : Key → Nat} {d : DG K} {t : DS K} (hd : d.OK ext) (ht : t.OK ext) {lab : Key → Int}
    (hl : LabOK lab d.is t.is) {Nis : IndexSet}
    (hN : Nis.Perm (t.is.filter (fun i => decide (i.key ∉ keys d.is)) ++ d.is.filter (fun i => decide (i.key ∉ keys t.is))))
    (hfull : (∀ k ∈ keys t.is, k ∈ keys d.is) → (∃ k ∈ keys d.is, k ∉ keys t.is) →
      ∃ i ∈ d.is, i.key ∉ keys t.is ∧ i.dim = d.length)
    (fuel : Nat) (hf : (t.is.map (·.dim)).prod < fuel) :
    ∃ R, contractDiagDense fuel d ((keys d.is).map lab) t ((keys t.is).map lab) (Nis.map fun i => (i, lab i.key)) = some (.ok R) ∧
      R.is = Nis ∧ R.OK ext ∧
      ∀ σ : Key → Nat, (∀ i ∈ Nis, σ i.key < i.dim) → R.getElt (Nis.map fun i => σ i.key) = .ok (prodVal' d t.sem σ) := by
  have kd : ∀ i, i ∈ d.is → i.key ∈ keys d.is := fun i hi => List.mem_map_of_mem hi
  have kt : ∀ i, i ∈ t.is → i.key ∈ keys t.is := fun i hi => List.mem_map_of_mem hi
  have mN : ∀ i, i ∈ Nis ↔ (i ∈ t.is ∧ i.key ∉ keys d.is) ∨ (i ∈ d.is ∧ i.key ∉ keys t.is) := by
    intro i; rw [hN.mem_iff, List.mem_append]; simp
  have okN : IsOK ext Nis := by
    refine ⟨?_, ?_, ?_, ?_⟩
    · have : (keys Nis).Perm (keys (t.is.filter (fun i => decide (i.key ∉ keys d.is))) ++
          keys (d.is.filter (fun i => decide (i.key ∉ keys t.is)))) := by
        have := hN.map Index.key
        rwa [List.map_append] at this
      rw [this.nodup_iff, List.nodup_append]
      refine ⟨ht.is.nodup.sublist (List.filter_sublist.map _), hd.is.nodup.sublist (List.filter_sublist.map _), ?_⟩
      intro a ha b hb e
      obtain ⟨i, hi, rfl⟩ := List.mem_map.1 ha
      obtain ⟨j, hj, rfl⟩ := List.mem_map.1 hb
      have h1 := (List.mem_filter.1 hi).1
      have h2 := of_decide_eq_true (List.mem_filter.1 hj).2
      exact h2 (e ▸ kt i h1)
    · intro i hi
      rcases (mN i).1 hi with h | h
      · exact ht.is.dims i h.1
      · exact hd.is.dims i h.1
    · intro i hi
      rcases (mN i).1 hi with h | h
      · exact ht.is.pos i h.1
      · exact hd.is.pos i h.1
    · intro i hi
      rcases (mN i).1 hi with h | h
      · exact ht.is.noqn i h.1
      · exact hd.is.noqn i h.1
  have n1 : (Nis.map fun i => (i, lab i.key)).map (·.1) = Nis := by rw [List.map_map]; exact List.map_id _
  have n2 : (Nis.map fun i => (i, lab i.key)).map (·.2) = (keys Nis).map lab := by rw [List.map_map, keys, List.map_map]; rfl
  have hany : ((keys t.is).map lab).any (fun x => decide (x ≥ 0)) = true ↔ ∃ i ∈ t.is, i.key ∉ keys d.is := by
    rw [List.any_eq_true]
    constructor
    · rintro ⟨x, hx, h0⟩
      obtain ⟨k, hk, rfl⟩ := List.mem_map.1 hx
      obtain ⟨i, hi, rfl⟩ := List.mem_map.1 hk
      refine ⟨i, hi, fun hm => ?_⟩
      have := (hl.sign i.key (Or.inl hm)).2.2 ⟨hm, hk⟩
      have := of_decide_eq_true h0
      omega
    · rintro ⟨i, hi, hn⟩
      refine ⟨lab i.key, List.mem_map_of_mem (kt i hi), ?_⟩
      rw [decide_eq_true_eq]
      by_contra h
      exact hn ((hl.sign i.key (Or.inr (kt i hi))).2.1 (by omega)).1
  unfold contractDiagDense
  simp only [n1, n2]
  by_cases hu : ∃ i ∈ t.is, i.key ∉ keys d.is
  · rw [if_pos (hany.2 hu)]
    obtain ⟨i0, hi0, hn0⟩ := hu
    obtain ⟨m, hm, hval⟩ := partial_ok hd ht hl hN (by
      intro h
      have : i0 ∈ t.is.filter (fun i => decide (i.key ∉ keys d.is)) := by simp [hi0, hn0]
      rw [h] at this
      simp at this) fuel hf
    rw [hm]
    refine ⟨.dense ⟨Nis, _, m⟩, rfl, rfl, ⟨okN, rfl⟩, fun σ hσ => ?_⟩
    simp only [IT.getElt, DS.getElt]
    rw [if_pos (rank_lt (valid_dims hσ)), hval σ hσ]
  · rw [if_neg (fun h => hu (hany.1 h))]
    have hU : ∀ i ∈ t.is, i.key ∈ keys d.is := by
      intro i hi; by_contra h; exact hu ⟨i, hi, h⟩
    have hUk : ∀ k ∈ keys t.is, k ∈ keys d.is := by
      intro k hk
      obtain ⟨i, hi, rfl⟩ := List.mem_map.1 hk
      exact hU i hi
    have mN' : ∀ i, i ∈ Nis ↔ i ∈ d.is ∧ i.key ∉ keys t.is := by
      intro i; rw [mN]
      constructor
      · rintro (h | h)
        · exact absurd (hU i h.1) h.2
        · exact h
      · exact Or.inr
    -- the strides of the remaining indices
    obtain ⟨Sd, hSd, _⟩ := exists_stride d.is hd.is.nodup
    have hus : (((((init (d.is.map (·.dim))).zip ((keys d.is).map lab)).filter fun p => decide (p.2 ≥ 0)).map (·.1.str)).sum = 0) ↔
        ∀ k ∈ keys d.is, k ∈ keys t.is := by
      rw [List.sum_eq_zero_iff]
      have hpos := stride_pos_from d.is hd.is.pos 1 (by omega)
      have hpos : ∀ r ∈ init (d.is.map (·.dim)), 0 < r.str := hpos
      rw [hSd] at hpos ⊢
      rw [zip_lab]
      constructor
      · intro h k hk
        obtain ⟨i, hi, rfl⟩ := List.mem_map.1 hk
        by_contra hn
        have h1 := hpos ⟨i.dim, Sd i.key⟩ (List.mem_map.2 ⟨i, hi, rfl⟩)
        have h2 := h (Sd i.key) (List.mem_map.2 ⟨(⟨i.dim, Sd i.key⟩, lab i.key), List.mem_filter.2 ⟨List.mem_map.2 ⟨i, hi, rfl⟩, by
          rw [decide_eq_true_eq]
          by_contra h'
          exact hn ((hl.sign i.key (Or.inl hk)).2.1 (not_le.1 h')).2⟩, rfl⟩)
        dsimp only at h1
        omega
      · intro h x hx
        obtain ⟨p, hp, rfl⟩ := List.mem_map.1 hx
        obtain ⟨hp, h0⟩ := List.mem_filter.1 hp
        obtain ⟨i, hi, rfl⟩ := List.mem_map.1 hp
        have h0 := of_decide_eq_true h0
        have := (hl.sign i.key (Or.inl (kd i hi))).2.2 ⟨kd i hi, h _ (kd i hi)⟩
        dsimp only at h0
        omega
    by_cases hV : ∀ k ∈ keys d.is, k ∈ keys t.is
    · rw [if_pos (hus.2 hV)]
      obtain ⟨m, hm, h1, _⟩ := full_ok hd ht hl hU 1 (Or.inl rfl)
      have hN0 : Nis = [] := by
        apply List.eq_nil_iff_forall_not_mem.2
        intro i hi
        exact ((mN' i).1 hi).2 (hV _ (kd i ((mN' i).1 hi).1))
      rw [hm]
      subst hN0
      refine ⟨.diag ⟨[], [], m 0, 1⟩, rfl, rfl, ⟨okN, by simp, Or.inl ⟨rfl, rfl⟩, Or.inl rfl⟩, fun σ _ => ?_⟩
      rw [prodVal'_all (DS.sem_ok ht) hUk hV, ← h1 rfl]
      simp [IT.getElt, DG.getElt]
    · rw [if_neg fun h => hV (hus.1 h)]
      have hVe : ∃ k ∈ keys d.is, k ∉ keys t.is := by
        by_contra h
        apply hV
        intro k hk
        by_contra h'
        exact h ⟨k, hk, h'⟩
      obtain ⟨i0, hi0, hk0, hd0⟩ := hfull hUk hVe
      have hi0N : i0 ∈ Nis := (mN' i0).2 ⟨hi0, hk0⟩
      obtain ⟨m, hm, h1, h2⟩ := full_ok hd ht hl hU d.length (Or.inr rfl)
      have hmv : ∀ J : Nat, J < d.length → m J = d.at' J * t.sem.val fun _ => J := by
        intro J hJ
        by_cases hl1 : d.length = 1
        · have : J = 0 := by omega
          subst this
          have := h1 hl1
          rw [hl1, sum_range_one] at this
          exact this
        · exact h2 hl1 J hJ
      have hle : ∀ i ∈ Nis, d.length ≤ i.dim := fun i hi => hd.le i ((mN' i).1 hi).1
      have hpos0 : 0 < d.length := by rw [← hd0]; exact hd.is.pos i0 hi0
      rw [hm]
      -- elements on and off the diagonal
      have hon : ∀ (σ : Key → Nat) (J : Nat), J < d.length → (∀ i ∈ Nis, σ i.key = J) → prodVal' d t.sem σ = m J := by
        intro σ J hJ h
        rw [hmv J hJ]
        refine prodVal'_on (DS.sem_ok ht) hUk hJ ?_ hVe
        intro k hk hkt
        obtain ⟨i, hi, rfl⟩ := List.mem_map.1 hk
        exact h i ((mN' i).2 ⟨hi, hkt⟩)
      have hoff : ∀ σ : Key → Nat, (¬ ∃ J, ∀ i ∈ Nis, σ i.key = J) → prodVal' d t.sem σ = 0 := by
        intro σ h
        refine prodVal'_off ?_
        rintro ⟨J, _, hJ⟩
        exact h ⟨J, fun i hi => hJ _ (kd i ((mN' i).1 hi).1) ((mN' i).1 hi).2⟩
      by_cases hl1 : Nis.length = 1
      · simp only [Res.map, if_pos hl1]
        refine ⟨_, rfl, rfl, ⟨okN, ?_⟩, fun σ hσ => ?_⟩
        · obtain ⟨i, rfl⟩ := List.length_eq_one_iff.1 hl1
          have : i0 = i := by simpa using hi0N
          subst this
          simp [hd0]
        · obtain ⟨i, rfl⟩ := List.length_eq_one_iff.1 hl1
          have : i0 = i := by simpa using hi0N
          subst this
          have hs := hσ i0 (by simp)
          simp only [IT.getElt, DS.getElt, List.map_cons, List.map_nil, rank, Nat.mul_zero, Nat.add_zero]
          rw [if_pos (by omega)]
          rw [hon σ (σ i0.key) (by omega) (by simp)]
      · simp only [Res.map, if_neg hl1]
        -- reading a diagonal result
        have read : ∀ (D : DG K), D.is = Nis → (∀ J : Nat, J < d.length → (D.store = [] ∧ D.val = m J) ∨ D.store[J]? = some (m J)) →
            ∀ σ : Key → Nat, (∀ i ∈ Nis, σ i.key < i.dim) → D.getElt (Nis.map fun i => σ i.key) = .ok (prodVal' d t.sem σ) := by
          intro D _ hD σ hσ
          unfold DG.getElt
          have hhd : ∀ J, (∀ i ∈ Nis, σ i.key = J) → (Nis.map fun i => σ i.key).headD 0 = J := by
            intro J h
            cases hc : Nis with
            | nil => rw [hc] at hi0N; simp at hi0N
            | cons i X => rw [hc] at h; simpa using h i (by simp)
          by_cases hJ : ∃ J, ∀ i ∈ Nis, σ i.key = J
          · obtain ⟨J, hJ⟩ := hJ
            have hJl : J < d.length := by rw [← hd0, ← hJ i0 hi0N]; exact hσ i0 hi0N
            simp only [hhd J hJ]
            rw [if_neg, hon σ J hJl hJ]
            · rcases hD J hJl with ⟨h1, h2⟩ | h1
              · rw [h1, h2]; rfl
              · have : D.store.isEmpty = false := by
                  rw [List.isEmpty_eq_false_iff]; intro h; rw [h] at h1; simp at h1
                rw [this, h1]; rfl
            rw [Bool.not_eq_true, List.any_eq_false]
            intro x hx
            obtain ⟨i, hi, rfl⟩ := List.mem_map.1 hx
            simp [hJ i hi]
          · rw [hoff σ hJ]
            simp only
            rw [if_pos]
            rw [List.any_eq_true]
            by_contra hc
            apply hJ
            refine ⟨(Nis.map fun i => σ i.key).headD 0, fun i hi => ?_⟩
            by_contra hne
            exact hc ⟨σ i.key, List.mem_map.2 ⟨i, hi, rfl⟩, by simpa using hne⟩
        by_cases hs1 : d.length = 1
        · simp only [if_pos hs1]
          refine ⟨_, rfl, rfl, ⟨okN, ?_, Or.inr ⟨i0, hi0N, ?_⟩, Or.inl rfl⟩, fun σ hσ => ?_⟩
          · intro i hi; exact okN.pos i hi
          · dsimp only; omega
          · refine read ⟨Nis, [], m 0, 1⟩ rfl ?_ σ hσ
            intro J hJ
            have : J = 0 := by omega
            subst this
            exact Or.inl ⟨rfl, rfl⟩
        · simp only [if_neg hs1]
          refine ⟨_, rfl, rfl, ⟨okN, hle, Or.inr ⟨i0, hi0N, hd0⟩, Or.inr (by simp)⟩, fun σ hσ => ?_⟩
          refine read _ rfl ?_ σ hσ
          intro J hJ
          exact Or.inr (by simp [hJ])

end Verif.Net
