import Verif.MPS.Sum

/-! # Sums of matrix product states: one site -/

namespace Verif.MPS

open Verif.Tensor Verif.Index Verif.Index.IndexSet Verif.Net Finset

variable {K : Type*} [CommRing K] [DecidableEq K]

/-! ## The two tensors of a bond -/

/-- A tensor with indices `x` and `q` and elements 1 where the value of `q` is `lo` more than that of `x`, otherwise 0. -/
structure IsBlock (ext : Key → Nat) (B : IT K) (x q : Key) (lo : Nat) : Prop where
  ok : B.OK ext
  inds : keys B.is = [x, q]
  val : ∀ σ : Key → Nat, σ x < ext x → σ q < ext q → B.sem.val σ = if σ q = lo + σ x then 1 else 0

omit [DecidableEq K] in
theorem foldl_update (g : Nat → Int) (a : Int) : ∀ (n : Nat), ((List.range n).foldl (fun (s : Int → K) i => Function.update s (g i) 1)
    fun _ => 0) a = if ∃ i < n, g i = a then 1 else 0 := by
  intro n
  induction n with
  | zero => simp
  | succ n ih =>
    rw [List.range_succ, List.foldl_append, List.foldl_cons, List.foldl_nil]
    by_cases h : a = g n
    · rw [h, Function.update_self, if_pos ⟨n, by omega, rfl⟩]
    · rw [Function.update_of_ne h, ih]
      congr 1
      apply propext
      constructor
      · rintro ⟨i, hi, e⟩; exact ⟨i, by omega, e⟩
      · rintro ⟨i, hi, e⟩
        refine ⟨i, ?_, e⟩
        by_contra hc
        have : i = n := by omega
        subst this
        exact h e.symm

omit [DecidableEq K] in
theorem secondMat_val {d1 d2 i j : Nat} (hi : i < d2) : secondMat (K := K) d1 d2 ((i + j * d2 : Nat) : Int) = if j = d1 + i then 1 else 0 := by
  unfold secondMat
  rw [foldl_update]
  congr 1
  apply propext
  constructor
  · rintro ⟨i', hi', e⟩
    have e : i' + (d1 + i') * d2 = i + j * d2 := by exact_mod_cast e
    have hm : i' = i := by
      have := congrArg (· % d2) e
      simpa [Nat.mod_eq_of_lt hi, Nat.mod_eq_of_lt hi'] using this
    subst hm
    have := Nat.add_left_cancel e
    exact (Nat.eq_of_mul_eq_mul_right (by omega) this).symm
  · intro e
    exact ⟨i, hi, by rw [e]⟩

theorem plussers_first {ext : Key → Nat} {newid : Key → Nat} {l1 l2 : Index} (h1 : l1.dim = ext l1.key) (h2 : l2.dim = ext l2.key)
    (p1 : 0 < l1.dim) (p2 : 0 < l2.dim) (hq1 : l1.qns = [])
    (hs : ext (plussers (K := K) newid l1 l2).sum.key = l1.dim + l2.dim) (hne : l1.key ≠ (plussers (K := K) newid l1 l2).sum.key) :
    IsBlock ext (plussers (K := K) newid l1 l2).first l1.key (plussers (K := K) newid l1 l2).sum.key 0 := by
  generalize hp : plussers (K := K) newid l1 l2 = p at *
  have hsum : p.sum.dim = l1.dim + l2.dim ∧ p.sum.qns = [] ∧ p.first = .diag ⟨[l1, p.sum], [], 1, min l1.dim (l1.dim + l2.dim)⟩ := by
    rw [← hp]; simp only [plussers, newIndex]; rw [if_neg (by omega)]; simp
  obtain ⟨s1, s2, s3⟩ := hsum
  rw [s3]
  refine ⟨⟨⟨?_, ?_, ?_, ?_⟩, ?_, ?_, Or.inl rfl⟩, rfl, ?_⟩
  · simpa [keys] using hne
  · simp only [List.mem_cons, List.not_mem_nil, or_false]
    rintro i (rfl | rfl)
    · exact h1
    · rw [s1, hs]
  · simp only [List.mem_cons, List.not_mem_nil, or_false]
    rintro i (rfl | rfl)
    · exact p1
    · omega
  · simp only [List.mem_cons, List.not_mem_nil, or_false]
    rintro i (rfl | rfl)
    · exact hq1
    · exact s2
  · simp only [List.mem_cons, List.not_mem_nil, or_false]
    rintro i (rfl | rfl)
    · exact Nat.min_le_left _ _
    · rw [s1]; exact Nat.min_le_right _ _
  · refine Or.inr ⟨l1, by simp, ?_⟩
    simp
  · intro σ hx hq
    simp only [IT.sem, DG.sem, keys, List.map_cons, List.map_nil, List.mem_cons, List.not_mem_nil, or_false, forall_eq_or_imp, forall_eq,
      DG.at', List.isEmpty_nil, if_true, Nat.zero_add]
    by_cases e : σ p.sum.key = σ l1.key
    · rw [if_pos e, sum_eq_single_of_mem (σ l1.key) (by rw [mem_range]; omega), if_pos ⟨rfl, e⟩]
      intro J _ hJ
      rw [if_neg fun h => hJ h.1.symm]
    · rw [if_neg e]
      refine sum_eq_zero fun J _ => ?_
      rw [if_neg fun h => e (h.2.trans h.1.symm)]

theorem plussers_second {ext : Key → Nat} {newid : Key → Nat} {l1 l2 : Index} (h2 : l2.dim = ext l2.key)
    (p2 : 0 < l2.dim) (hq2 : l2.qns = [])
    (hs : ext (plussers (K := K) newid l1 l2).sum.key = l1.dim + l2.dim) (hne : l2.key ≠ (plussers (K := K) newid l1 l2).sum.key) :
    IsBlock ext (plussers (K := K) newid l1 l2).second l2.key (plussers (K := K) newid l1 l2).sum.key l1.dim := by
  generalize hp : plussers (K := K) newid l1 l2 = p at *
  have hsum : p.sum.dim = l1.dim + l2.dim ∧ p.sum.qns = [] ∧
      p.second = .dense ⟨[l2, p.sum], l2.dim * (l1.dim + l2.dim), secondMat l1.dim l2.dim⟩ := by
    rw [← hp]; simp only [plussers, newIndex]; rw [if_neg (by omega)]; simp
  obtain ⟨s1, s2, s3⟩ := hsum
  rw [s3]
  refine ⟨⟨⟨?_, ?_, ?_, ?_⟩, ?_⟩, rfl, ?_⟩
  · simpa [keys] using hne
  · simp only [List.mem_cons, List.not_mem_nil, or_false]
    rintro i (rfl | rfl)
    · exact h2
    · rw [s1, hs]
  · simp only [List.mem_cons, List.not_mem_nil, or_false]
    rintro i (rfl | rfl)
    · exact p2
    · omega
  · simp only [List.mem_cons, List.not_mem_nil, or_false]
    rintro i (rfl | rfl)
    · exact hq2
    · exact s2
  · simp [s1]
  · intro σ hx hq
    have e : rank [l2.dim, p.sum.dim] [σ l2.key, σ p.sum.key] = σ l2.key + σ p.sum.key * l2.dim := by
      simp [rank, Nat.mul_comm]
    simp only [IT.sem, DS.sem, List.map_cons, List.map_nil]
    rw [e, secondMat_val (by omega)]

/-! ## Products with them -/

/-- The function of the value of `q` which is that of `x` at the value of `q` less `lo`, and zero outside of the block. -/
def emb {X : Type*} [DecidableEq X] (lo e : Nat) (x q : X) (f : (X → Nat) → K) (σ : X → Nat) : K :=
  if lo ≤ σ q ∧ σ q < lo + e then f (Function.update σ x (σ q - lo)) else 0

omit [DecidableEq K] in
theorem block_sum {X : Type*} [DecidableEq X] {ext : X → Nat} {x q : X} (hne : x ≠ q) {lo : Nat} {b f : (X → Nat) → K} {σ : X → Nat}
    (hb : ∀ σ : X → Nat, σ x < ext x → σ q < ext q → b σ = if σ q = lo + σ x then 1 else 0) (hq : σ q < ext q) :
    ∑ v ∈ range (ext x), f (Function.update σ x v) * b (Function.update σ x v) = emb lo (ext x) x q f σ := by
  have hbv : ∀ v ∈ range (ext x), b (Function.update σ x v) = if σ q = lo + v then 1 else 0 := by
    intro v hv
    rw [hb _ (by simpa using hv) (by rw [Function.update_of_ne hne.symm]; exact hq), Function.update_self, Function.update_of_ne hne.symm]
  unfold emb
  split
  · rename_i h
    rw [sum_eq_single_of_mem (σ q - lo) (by rw [mem_range]; omega), hbv _ (by rw [mem_range]; omega), if_pos (by omega), mul_one]
    intro v hv hv'
    rw [hbv v hv, if_neg (by omega), mul_zero]
  · rename_i h
    refine sum_eq_zero fun v hv => ?_
    rw [hbv v hv, if_neg, mul_zero]
    have := mem_range.1 hv
    omega

omit [DecidableEq K] in
theorem mul_block {X : Type*} [DecidableEq X] {ext : X → Nat} {T B : Ten X K} {x q : X} {lo : Nat} (hT : T.inds.Nodup) (hBi : B.inds = [x, q]) (hne : x ≠ q)
    (hb : ∀ σ : X → Nat, σ x < ext x → σ q < ext q → B.val σ = if σ q = lo + σ x then 1 else 0) (hx : x ∈ T.inds) (hq : q ∉ T.inds)
    {σ : X → Nat} (hσ : σ q < ext q) :
    (mul ext T B).val σ = emb lo (ext x) x q T.val σ ∧ (mul ext B T).val σ = emb lo (ext x) x q T.val σ := by
  have e1 : T.inds.filter (· ∈ B.inds) = [x] := by
    rw [← List.perm_singleton]
    refine (List.perm_ext_iff_of_nodup (hT.filter _) (by simp)).2 fun k => ?_
    rw [hBi]
    simp only [List.mem_filter, List.mem_cons, List.not_mem_nil, or_false, decide_eq_true_eq]
    constructor
    · rintro ⟨h1, rfl | rfl⟩
      · rfl
      · exact absurd h1 hq
    · rintro rfl; exact ⟨hx, Or.inl rfl⟩
  have e2 : B.inds.filter (· ∈ T.inds) = [x] := by
    rw [hBi]; simp [hx, hq]
  constructor
  · simp only [mul, e1, sumOver]
    exact block_sum hne hb hσ
  · simp only [mul, e2, sumOver]
    rw [← block_sum hne hb hσ]
    exact sum_congr rfl fun v _ => mul_comm _ _

/-- The bounds on sizes: no index is longer than `d`, and tensors with up to `c` indices fit. -/
structure Fits (ext : Key → Nat) (d c fuel : Nat) : Prop where
  pos : 1 ≤ d
  le : ∀ k, ext k ≤ d
  max : ((d ^ c : Nat) : Int) ≤ offMax
  fuel : d ^ c < fuel

theorem Fits.size {ext : Key → Nat} {d c fuel : Nat} (h : Fits ext d c fuel) {I : List Key} (hI : I.length ≤ c) :
    ((I.map ext).prod : Int) ≤ offMax ∧ (I.map ext).prod < fuel := by
  have : (I.map ext).prod ≤ d ^ c := prod_le_pow h.pos (by
    intro x hx
    obtain ⟨k, _, rfl⟩ := List.mem_map.1 hx
    exact h.le k) (by simpa using hI)
  exact ⟨le_trans (by exact_mod_cast this) h.max, lt_of_le_of_lt this h.fuel⟩

theorem length_le_of {I L : List Key} (hI : I.Nodup) (h : ∀ k ∈ I, k ∈ L) {n : Nat} (hn : L.length ≤ n) : I.length ≤ n :=
  ((List.subperm_of_subset hI h).length_le).trans hn

/-- What a dense tensor is after the replacement of `x` by `q` in a block. -/
structure Moved (ext : Key → Nat) (lo : Nat) (x q : Key) (N N' : DS K) : Prop where
  ok : N'.OK ext
  inds : ∀ k, k ∈ keys N'.is ↔ (k ∈ keys N.is ∧ k ≠ x) ∨ k = q
  val : ∀ σ : Key → Nat, (∀ k ∈ keys N'.is, σ k < ext k) → N'.sem.val σ = emb lo (ext x) x q N.sem.val σ

omit [DecidableEq K] in
theorem Moved.length {ext : Key → Nat} {lo : Nat} {x q : Key} {N N' : DS K} (h : Moved ext lo x q N N') (hx : x ∈ keys N.is) :
    N'.is.length ≤ N.is.length := by
  have h1 : (keys N'.is).length ≤ (keys N.is).length := by
    refine length_le_of h.ok.is.nodup (L := q :: (keys N.is).erase x) ?_ ?_
    · intro k hk
      rcases (h.inds k).1 hk with ⟨h1, h2⟩ | rfl
      · exact List.mem_cons_of_mem _ ((List.mem_erase_of_ne h2).2 h1)
      · simp
    · rw [List.length_cons, List.length_erase_of_mem hx]
      have := List.length_pos_of_mem hx
      omega
  simpa [keys] using h1

theorem block_step {ext : Key → Nat} {d c fuel : Nat} (hF : Fits ext d c fuel) (hc : 2 ≤ c) (junk fresh : Int → K) {N : DS K} (hN : N.OK ext)
    {B : IT K} {x q : Key} {lo : Nat} (hB : IsBlock ext B x q lo) (hx : x ∈ keys N.is) (hq : q ∉ keys N.is)
    (hother : ∃ k ∈ keys N.is, k ≠ x) (hlen : N.is.length ≤ c) :
    (∃ N', (IT.dense N).mulEq fuel junk fresh B = some (.ok (.dense N')) ∧ Moved ext lo x q N N') ∧
    ∃ N', B.mulEq fuel junk fresh (.dense N) = some (.ok (.dense N')) ∧ Moved ext lo x q N N' := by
  obtain ⟨k0, hk0, hk0x⟩ := hother
  have hne : x ≠ q := by rintro rfl; exact hq hx
  have hk0B : k0 ∉ keys B.is := by
    rw [hB.inds]
    simp only [List.mem_cons, List.not_mem_nil, or_false, not_or]
    exact ⟨hk0x, by rintro rfl; exact hq hk0⟩
  have hND : (IT.dense N).OK ext := hN
  have hBs : B.sem.inds = [x, q] := by rw [IT.inds_sem, hB.inds]
  have hNs : (IT.dense N).sem.inds = keys N.is := rfl
  have okN := IT.sem_ok hND
  have okB := IT.sem_ok hB.ok
  have memNB : ∀ k, k ∈ (mul ext (IT.dense N).sem B.sem).inds ↔ (k ∈ keys N.is ∧ k ≠ x) ∨ k = q := by
    intro k
    rw [Net.mul_mem, hNs, hBs]
    simp only [List.mem_cons, List.not_mem_nil, or_false, not_or]
    constructor
    · rintro (⟨h1, h2, _⟩ | ⟨rfl | rfl, h2⟩)
      · exact Or.inl ⟨h1, h2⟩
      · exact absurd hx h2
      · exact Or.inr rfl
    · rintro (⟨h1, h2⟩ | rfl)
      · exact Or.inl ⟨h1, h2, by rintro rfl; exact hq h1⟩
      · exact Or.inr ⟨Or.inr rfl, hq⟩
  have memBN : ∀ k, k ∈ (mul ext B.sem (IT.dense N).sem).inds ↔ (k ∈ keys N.is ∧ k ≠ x) ∨ k = q := by
    intro k
    rw [← memNB, Net.mul_mem, Net.mul_mem, or_comm]
  have lenOf : ∀ {I : List Key}, I.Nodup → (∀ k, k ∈ I ↔ (k ∈ keys N.is ∧ k ≠ x) ∨ k = q) → I.length ≤ c := by
    intro I hI hm
    refine length_le_of hI (L := q :: (keys N.is).erase x) ?_ ?_
    · intro k hk
      rcases (hm k).1 hk with ⟨h1, h2⟩ | rfl
      · exact List.mem_cons_of_mem _ ((List.mem_erase_of_ne h2).2 h1)
      · simp
    · rw [List.length_cons, List.length_erase_of_mem hx]
      have := List.length_pos_of_mem hx
      have : (keys N.is).length ≤ c := by simpa [keys] using hlen
      omega
  have sN := hF.size (I := keys N.is) (by simpa [keys] using hlen)
  have sB := hF.size (I := keys B.is) (by rw [hB.inds]; simpa using hc)
  have sNB := hF.size (lenOf (mul_ok ext okN okB).nodup memNB)
  have sBN := hF.size (lenOf (mul_ok ext okB okN).nodup memBN)
  have hrest : ∀ dg : DG K, B = .diag dg → DiagRest dg N := by
    rintro dg rfl h
    exact absurd (h k0 hk0) hk0B
  have hm1 : Multiplicable (IT.dense N) B := by
    refine Or.inr (Or.inr ?_)
    cases B with
    | dense t => trivial
    | diag dg => exact hrest dg rfl
  have hm2 : Multiplicable B (IT.dense N) := by
    refine Or.inr (Or.inr ?_)
    cases B with
    | dense t => trivial
    | diag dg => exact hrest dg rfl
  obtain ⟨X, hX, HX⟩ := C28_operator_partial hND hB.ok hm1 fuel sN.1 sB.1 sNB.1 sN.2 sB.2 sNB.2 junk fresh
  obtain ⟨Y, hY, HY⟩ := C28_operator_partial hB.ok hND hm2 fuel sB.1 sN.1 sBN.1 sB.2 sN.2 sBN.2 junk fresh
  have hl1 : (IT.dense N).is.length ≠ 0 := by
    intro h
    have : N.is = [] := List.eq_nil_of_length_eq_zero h
    rw [this] at hx; simp [keys] at hx
  have hl2 : B.is.length ≠ 0 := by
    have : (keys B.is).length = 2 := by rw [hB.inds]; rfl
    simp [keys] at this
    omega
  have dX : ∃ n, X = .dense n := by
    unfold IT.mulEq at hX
    rw [if_neg hl1, if_neg hl2] at hX
    cases B with
    | dense t =>
      simp only at hX
      revert hX
      generalize DTensor.contractDense (K := K) _ _ _ _ _ = r
      rcases r with _ | _ | _ | _ <;> simp [Run.bind]
      rintro rfl; exact ⟨_, rfl⟩
    | diag dg => exact (mulDenseDiag_dense hN.is.nodup hB.ok.isOK.nodup hk0 hk0B).1 hX
  have dY : ∃ n, Y = .dense n := by
    unfold IT.mulEq at hY
    rw [if_neg hl2, if_neg hl1] at hY
    cases B with
    | dense t =>
      simp only at hY
      revert hY
      generalize DTensor.contractDense (K := K) _ _ _ _ _ = r
      rcases r with _ | _ | _ | _ <;> simp [Run.bind]
      rintro rfl; exact ⟨_, rfl⟩
    | diag dg => exact (mulDenseDiag_dense hN.is.nodup hB.ok.isOK.nodup hk0 hk0B).2 hY
  obtain ⟨n, rfl⟩ := dX
  obtain ⟨n', rfl⟩ := dY
  have fin : ∀ {n : DS K} {T : Ten Key K}, Holds ext (.dense n) T → (∀ k, k ∈ T.inds ↔ (k ∈ keys N.is ∧ k ≠ x) ∨ k = q) →
      (∀ σ : Key → Nat, σ q < ext q → T.val σ = emb lo (ext x) x q N.sem.val σ) → Moved ext lo x q N n := by
    intro n T H hm hv
    have hn : n.OK ext := H.ok
    have hp : ∀ k, k ∈ keys n.is ↔ k ∈ T.inds := fun k => H.inds.mem_iff
    refine ⟨hn, fun k => (hp k).trans (hm k), fun σ hσ => ?_⟩
    have h1 := H.elt σ fun k hk => hσ k ((hp k).2 hk)
    have h2 := (IT.holds_sem (T := .dense n) hn).elt σ hσ
    rw [← hv σ (hσ q ((hp q).2 ((hm q).2 (Or.inr rfl))))]
    exact Res.ok.inj (h2.symm.trans h1)
  refine ⟨⟨n, hX, fin HX memNB fun σ hσ => ?_⟩, ⟨n', hY, fin HY memBN fun σ hσ => ?_⟩⟩
  · exact (mul_block okN.nodup hBs hne hB.val hx hq hσ).1
  · exact (mul_block okN.nodup hBs hne hB.val hx hq hσ).2

/-! ## One site -/

/-- A link `x` which is replaced by `q`, with the position of its block. -/
structure Lk where
  x : Key
  q : Key
  lo : Nat

/-- The tensor, if there is one, which replaces a link. -/
def BlockO (ext : Key → Nat) : Option (IT K) → Option Lk → Prop
  | none, none => True
  | some B, some p => IsBlock ext B p.x p.q p.lo
  | _, _ => False

def embO (ext : Key → Nat) (p : Option Lk) (f : (Key → Nat) → K) : (Key → Nat) → K :=
  match p with
  | none => f
  | some p => emb p.lo (ext p.x) p.x p.q f

/-- The links of a site and their replacements are different from each other and from the site indices. -/
structure Apart (S : List Key) (prev next : Option Lk) : Prop where
  p : ∀ a ∈ prev, a.x ∉ S ∧ a.q ∉ S ∧ a.x ≠ a.q
  n : ∀ a ∈ next, a.x ∉ S ∧ a.q ∉ S ∧ a.x ≠ a.q
  pn : ∀ a ∈ prev, ∀ b ∈ next, a.x ≠ b.x ∧ a.q ≠ b.q ∧ a.x ≠ b.q ∧ a.q ≠ b.x

/-- `dag(f)*A*g`. -/
theorem term_ok {ext : Key → Nat} {d c fuel : Nat} (hF : Fits ext d c fuel) (hc : 2 ≤ c) (junk fresh : Int → K) {N : DS K} (hN : N.OK ext)
    {f g : Option (IT K)} {prev next : Option Lk} (hf : BlockO ext f prev) (hg : BlockO ext g next) {S : List Key} (hS : S ≠ [])
    (hA : Apart S prev next) (hk : ∀ k, k ∈ keys N.is ↔ k ∈ S ∨ prev.map (·.x) = some k ∨ next.map (·.x) = some k)
    (hlen : N.is.length ≤ c) :
    ∃ N', term fuel junk fresh f g (.dense N) = some (.ok (.dense N')) ∧ N'.OK ext ∧
      (∀ k, k ∈ keys N'.is ↔ k ∈ S ∨ prev.map (·.q) = some k ∨ next.map (·.q) = some k) ∧
      ∀ σ : Key → Nat, (∀ k ∈ keys N'.is, σ k < ext k) → N'.sem.val σ = embO ext next (embO ext prev N.sem.val) σ := by
  obtain ⟨s, hs⟩ := List.exists_mem_of_ne_nil S hS
  -- the first product
  obtain ⟨N1, e1, ok1, k1, v1, l1⟩ : ∃ N1, ((f = none ∧ N1 = N) ∨ ∃ B, f = some B ∧ B.mulEq fuel junk fresh (.dense N) = some (.ok (IT.dense N1))) ∧ N1.OK ext ∧
      (∀ k, k ∈ keys N1.is ↔ k ∈ S ∨ prev.map (·.q) = some k ∨ next.map (·.x) = some k) ∧
      (∀ σ : Key → Nat, (∀ k ∈ keys N1.is, σ k < ext k) → N1.sem.val σ = embO ext prev N.sem.val σ) ∧ N1.is.length ≤ c := by
    cases f with
    | none =>
      cases prev with
      | none => exact ⟨N, Or.inl ⟨rfl, rfl⟩, hN, by simpa using hk, fun σ _ => rfl, hlen⟩
      | some p => exact absurd hf (by simp [BlockO])
    | some B =>
      cases prev with
      | none => exact absurd hf (by simp [BlockO])
      | some p =>
        have hB : IsBlock ext B p.x p.q p.lo := hf
        obtain ⟨a1, a2, a3⟩ := hA.p p rfl
        have hx : p.x ∈ keys N.is := (hk _).2 (Or.inr (Or.inl rfl))
        have hq : p.q ∉ keys N.is := by
          rw [hk]
          rintro (h | h | h)
          · exact a2 h
          · exact a3 (by simpa using h)
          · cases next with
            | none => simp at h
            | some n =>
              simp only [Option.map_some, Option.some.injEq] at h
              exact (hA.pn p rfl n rfl).2.2.2 h.symm
        obtain ⟨_, N', e, hM⟩ := block_step hF hc junk fresh hN hB hx hq ⟨s, (hk _).2 (Or.inl hs), by rintro rfl; exact a1 hs⟩ hlen
        refine ⟨N', Or.inr ⟨B, rfl, e⟩, hM.ok, fun k => ?_, fun σ hσ => hM.val σ hσ, (hM.length hx).trans hlen⟩
        rw [hM.inds, hk]
        simp only [Option.map_some, Option.some.injEq]
        constructor
        · rintro (⟨h | rfl | h, h'⟩ | rfl)
          · exact Or.inl h
          · exact absurd rfl h'
          · exact Or.inr (Or.inr h)
          · exact Or.inr (Or.inl rfl)
        · rintro (h | rfl | h)
          · exact Or.inl ⟨Or.inl h, by rintro rfl; exact a1 h⟩
          · exact Or.inr rfl
          · refine Or.inl ⟨Or.inr (Or.inr h), ?_⟩
            rintro rfl
            cases next with
            | none => simp at h
            | some n =>
              simp only [Option.map_some, Option.some.injEq] at h
              exact (hA.pn p rfl n rfl).1 h.symm
  have e2 : term fuel junk fresh f g (.dense N) = term fuel junk fresh none g (.dense N1) := by
    rcases e1 with ⟨rfl, rfl⟩ | ⟨B, rfl, e⟩
    · rfl
    · simp only [term, e, Run.bind]
  rw [e2]
  clear e2
  cases g with
  | none =>
    cases next with
    | none => exact ⟨N1, rfl, ok1, k1, v1⟩
    | some p => exact absurd hg (by simp [BlockO])
  | some B =>
    cases next with
    | none => exact absurd hg (by simp [BlockO])
    | some n =>
      have hB : IsBlock ext B n.x n.q n.lo := hg
      obtain ⟨a1, a2, a3⟩ := hA.n n rfl
      have hx : n.x ∈ keys N1.is := (k1 _).2 (Or.inr (Or.inr rfl))
      have hq : n.q ∉ keys N1.is := by
        rw [k1]
        rintro (h | h | h)
        · exact a2 h
        · cases prev with
          | none => simp at h
          | some p =>
            simp only [Option.map_some, Option.some.injEq] at h
            exact (hA.pn p rfl n rfl).2.1 h
        · exact a3 (by simpa using h)
      obtain ⟨⟨N', e, hM⟩, _⟩ := block_step hF hc junk fresh ok1 hB hx hq ⟨s, (k1 _).2 (Or.inl hs), by rintro rfl; exact a1 hs⟩ l1
      refine ⟨N', e, hM.ok, fun k => ?_, fun σ hσ => ?_⟩
      · rw [hM.inds, k1]
        simp only [Option.map_some, Option.some.injEq]
        constructor
        · rintro (⟨h | h | rfl, h'⟩ | rfl)
          · exact Or.inl h
          · exact Or.inr (Or.inl h)
          · exact absurd rfl h'
          · exact Or.inr (Or.inr rfl)
        · rintro (h | h | rfl)
          · exact Or.inl ⟨Or.inl h, by rintro rfl; exact a1 h⟩
          · refine Or.inl ⟨Or.inr (Or.inl h), ?_⟩
            rintro rfl
            cases prev with
            | none => simp at h
            | some p =>
              simp only [Option.map_some, Option.some.injEq] at h
              exact (hA.pn p rfl n rfl).2.2.2 h
          · exact Or.inr rfl
      · rw [hM.val σ hσ]
        simp only [embO, emb]
        split
        · rename_i h
          refine v1 _ fun k hk' => ?_
          by_cases hkx : k = n.x
          · subst hkx; rw [Function.update_self]; omega
          · rw [Function.update_of_ne hkx]
            exact hσ k ((hM.inds k).2 (Or.inl ⟨hk', hkx⟩))
        · rfl

theorem term_plain {fuel : Nat} {junk fresh : Int → K} {f g : Option (IT K)} {N N' : IT K} (hN : ∀ i ∈ N.is, Plain i)
    (hf : ∀ B ∈ f, ∀ i ∈ B.is, Plain i) (hg : ∀ B ∈ g, ∀ i ∈ B.is, Plain i)
    (h : term fuel junk fresh f g N = some (.ok N')) : ∀ i ∈ N'.is, Plain i := by
  have mid : ∀ {L R M : IT K}, (∀ i ∈ L.is, Plain i) → (∀ i ∈ R.is, Plain i) → L.mulEq fuel junk fresh R = some (.ok M) →
      ∀ i ∈ M.is, Plain i := by
    intro L R M hL hR e i hi
    rcases IT.mulEq_mem (fun i hi => (hL i hi).qns) (fun i hi => (hR i hi).qns) e i hi with h | h
    · exact hL i h
    · exact hR i h
  have second : ∀ {M : IT K}, (∀ i ∈ M.is, Plain i) → term fuel junk fresh none g M = some (.ok N') → ∀ i ∈ N'.is, Plain i := by
    intro M hM e
    cases g with
    | none => simp only [term, Run.bind, Option.some.injEq, Res.ok.injEq] at e; subst e; exact hM
    | some B => exact mid hM (hg B rfl) e
  cases f with
  | none => exact second hN h
  | some B =>
    cases e : B.mulEq fuel junk fresh N with
    | none => simp [term, e, Run.bind] at h
    | some r =>
      cases r with
      | ok M => exact second (mid (hf B rfl) hN e) (by rw [← h]; simp [term, e, Run.bind])
      | throw => simp [term, e, Run.bind] at h
      | ub => simp [term, e, Run.bind] at h

/-- What the sum of a site means. -/
structure SiteSpec (ext : Key → Nat) (S : List Key) (pa na pb nb : Option Lk) (A B M : DTensor K) : Prop where
  ok : M.OK ext
  inds : ∀ k, k ∈ keys M.is ↔ k ∈ S ∨ pa.map (·.q) = some k ∨ na.map (·.q) = some k
  val : ∀ σ : Key → Nat, (∀ k ∈ keys M.is, σ k < ext k) →
    M.sem.val σ = embO ext na (embO ext pa A.sem.val) σ + embO ext nb (embO ext pb B.sem.val) σ
  plain : ∀ i ∈ M.is, Plain i

omit [DecidableEq K] in
theorem toDS_ok {ext : Key → Nat} {A : DTensor K} (h : A.OK ext) : (⟨A.is, (A.is.map (·.dim)).prod, A.store⟩ : DS K).OK ext :=
  ⟨⟨h.nodup, h.dims, h.pos, h.noqn⟩, rfl⟩

theorem siteSum_ok {ext : Key → Nat} {d c fuel : Nat} (hF : Fits ext d c fuel) (hc : 2 ≤ c) (junk fresh : Int → K) {A B : DTensor K}
    (hA : A.OK ext) (hB : B.OK ext) {prev next : Option (Bond K)} {pa na pb nb : Option Lk}
    (h1 : BlockO ext (prev.map (·.first)) pa) (h2 : BlockO ext (next.map (·.first)) na)
    (h3 : BlockO ext (prev.map (·.second)) pb) (h4 : BlockO ext (next.map (·.second)) nb) {S : List Key} (hS : S ≠ [])
    (apA : Apart S pa na) (apB : Apart S pb nb) (hq1 : pa.map (·.q) = pb.map (·.q)) (hq2 : na.map (·.q) = nb.map (·.q))
    (kA : ∀ k, k ∈ keys A.is ↔ k ∈ S ∨ pa.map (·.x) = some k ∨ na.map (·.x) = some k)
    (kB : ∀ k, k ∈ keys B.is ↔ k ∈ S ∨ pb.map (·.x) = some k ∨ nb.map (·.x) = some k)
    (lA : A.is.length ≤ c) (lB : B.is.length ≤ c) (hlen : S.length + 2 ≤ c) (pA : ∀ i ∈ A.is, Plain i)
    (p1 : ∀ b ∈ prev, ∀ i ∈ b.first.is, Plain i) (p2 : ∀ b ∈ next, ∀ i ∈ b.first.is, Plain i) :
    ∃ M, siteSum fuel junk fresh prev next A B = some (.ok M) ∧ SiteSpec ext S pa na pb nb A B M := by
  obtain ⟨X, eX, okX, kX, vX⟩ := term_ok hF hc junk fresh (toDS_ok hA) h1 h2 hS apA kA lA
  obtain ⟨Y, eY, okY, kY, vY⟩ := term_ok hF hc junk fresh (toDS_ok hB) h3 h4 hS apB kB lB
  have hkk : ∀ k, k ∈ keys Y.is ↔ k ∈ keys X.is := by
    intro k; rw [kX, kY, hq1, hq2]
  have hperm : (keys Y.is).Perm (keys X.is) := (List.perm_ext_iff_of_nodup okY.is.nodup okX.is.nodup).2 hkk
  have hsz := hF.size (I := keys X.is) (length_le_of okX.is.nodup (L := S ++ ((pa.map (·.q)).toList ++ (na.map (·.q)).toList)) (by
    intro k hk
    rw [kX] at hk
    simp only [List.mem_append, Option.mem_toList]
    exact hk) (by
      simp only [List.length_append]
      have : ∀ o : Option Key, o.toList.length ≤ 1 := by rintro (_ | _) <;> simp
      have := this (pa.map (·.q)); have := ‹∀ o : Option Key, o.toList.length ≤ 1› (na.map (·.q))
      omega))
  have dX : X.is.map (·.dim) = (keys X.is).map ext := IT.dims (T := .dense X) okX
  obtain ⟨Z, eZ, iZ, HZ⟩ := C64_sum_partial (L := .dense X) (R := .dense Y) okX okY hperm trivial 1 fuel
    (by change (((X.is.map (·.dim)).prod : Nat) : Int) ≤ _; rw [dX]; exact hsz.1) (by change (X.is.map (·.dim)).prod < _; rw [dX]; exact hsz.2)
  obtain ⟨z, rfl⟩ : ∃ z, Z = .dense z := by
    unfold daxpyIT at eZ
    split at eZ
    · simp at eZ
    · split at eZ
      · simp only at eZ
        revert eZ
        generalize addDense (K := K) _ _ _ _ _ = r
        rcases r with _ | _ | _ | _ <;> simp [Run.bind]
        rintro rfl; exact ⟨_, rfl⟩
      · simp at eZ
      · simp at eZ
  have okz : z.OK ext := HZ.ok
  have iZ : z.is = X.is := iZ
  refine ⟨⟨z.is, z.mem⟩, ?_, ⟨⟨okz.is.nodup, okz.is.dims, okz.is.pos, okz.is.noqn⟩, ?_, ?_, ?_⟩⟩
  · unfold siteSum toIT
    rw [eX, eY]
    simp only [Run.bind]
    rw [eZ]
  · intro k
    change k ∈ keys z.is ↔ _
    rw [iZ]; exact kX k
  · intro σ hσ
    have hσ : ∀ k ∈ keys X.is, σ k < ext k := by
      have : ∀ k ∈ keys z.is, σ k < ext k := hσ
      rwa [iZ] at this
    have e1 := HZ.elt σ hσ
    have e2 := (IT.holds_sem (T := .dense z) okz).elt σ (by change ∀ k ∈ keys z.is, _; rw [iZ]; exact hσ)
    have e3 : z.sem.val σ = X.sem.val σ + 1 * Y.sem.val σ := Res.ok.inj (e2.symm.trans e1)
    change z.sem.val σ = _
    rw [e3, one_mul, vX σ hσ, vY σ fun k hk => hσ k ((hkk k).1 hk)]
    rfl
  · have := term_plain (N := .dense ⟨A.is, (A.is.map (·.dim)).prod, A.store⟩) (N' := .dense X) pA (by
      intro B hB; obtain ⟨b, hb, rfl⟩ := Option.mem_map.1 hB; exact p1 b hb) (by
      intro B hB; obtain ⟨b, hb, rfl⟩ := Option.mem_map.1 hB; exact p2 b hb) eX
    intro i hi
    exact this i (show i ∈ X.is from iZ ▸ hi)

end Verif.MPS
