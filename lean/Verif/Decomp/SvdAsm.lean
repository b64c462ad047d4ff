import Verif.Decomp.Svd
import Mathlib.Algebra.BigOperators.Group.Finset.Basic
import Mathlib.Algebra.BigOperators.Ring.Finset

/-!
# Filling the block-sparse factors of a decomposition

Lemmas on `assemble`: what the elements of the three tensors are.
-/

namespace Verif.Svd

open Verif.Index (Index IndexSet)
open Verif.QDense
open Verif.Tensor
open Verif.TagSet (TagSet)
open Verif.QN (IsQN norm)

variable {R K : Type*}

/-! ## Sums over the values of an index -/

/-- A sum over all values is the sum over the sectors of the sums over their values. -/
theorem sum_sizes {α : Type*} [AddCommMonoid α] (zs : List Nat) (f : Nat → α) :
    ∑ i ∈ Finset.range zs.sum, f i = ∑ b ∈ Finset.range zs.length, ∑ u ∈ Finset.range (zs.getD b 0), f ((zs.take b).sum + u) := by
  induction zs generalizing f with
  | nil => simp
  | cons z zs ih =>
    rw [List.length_cons, Finset.sum_range_succ', List.sum_cons, Finset.sum_range_add, ih, add_comm]
    congr 1
    · refine Finset.sum_congr rfl fun b _ => ?_
      simp only [List.getD_cons_succ, List.take_succ_cons, List.sum_cons]
      refine Finset.sum_congr rfl fun u _ => ?_
      rw [Nat.add_assoc]
    · simp

/-! ## Copying one block -/

theorem putMat_spec [CommRing K] (d : QDense K) (off nr nc : Nat) (f : Nat → Nat → K) (h : off + nr * nc ≤ d.size) :
    ∃ d', putMat d off nr nc f = .ok d' ∧ d'.offsets = d.offsets ∧ d'.size = d.size ∧
      (∀ k < nr * nc, d'.data ((off + k : Nat) : Int) = f (k % nr) (k / nr)) ∧
      ∀ a : Int, (∀ k < nr * nc, a ≠ ((off + k : Nat) : Int)) → d'.data a = d.data a := by
  have key : ∀ N, off + N ≤ d.size → ∃ d', Res.foldM (fun d k => write d (off + k) (f (k % nr) (k / nr))) d (List.range N) = .ok d' ∧
      d'.offsets = d.offsets ∧ d'.size = d.size ∧ (∀ k < N, d'.data ((off + k : Nat) : Int) = f (k % nr) (k / nr)) ∧
      ∀ a : Int, (∀ k < N, a ≠ ((off + k : Nat) : Int)) → d'.data a = d.data a := by
    intro N
    induction N with
    | zero => intro _; exact ⟨d, rfl, rfl, rfl, by simp, fun _ _ => rfl⟩
    | succ N ih =>
      intro hN
      obtain ⟨d1, e1, e2, e3, e4, e5⟩ := ih (by omega)
      refine ⟨{ d1 with data := fun a => if a = ((off + N : Nat) : Int) then f (N % nr) (N / nr) else d1.data a }, ?_, e2, e3, ?_, ?_⟩
      · rw [List.range_succ, Res.foldM_append, e1]
        simp only [Res.bind_ok, Res.foldM_cons, Res.foldM_nil, write, e3]
        rw [if_pos (by omega)]
        rfl
      · intro k hk
        dsimp only
        by_cases hkN : k = N
        · subst hkN; simp
        · rw [if_neg (by omega), e4 k (by omega)]
      · intro a ha
        dsimp only
        rw [if_neg (ha N (by omega)), e5 a fun k hk => ha k (by omega)]
  exact key _ h

theorem valid2 {is : IndexSet} {X L : Index} (h : is = [X, L]) {a m : Nat} : Valid (nb is) [a, m] ↔ a < X.nblock ∧ m < L.nblock := by
  subst h; simp [Valid, nb]

theorem bext2 (X L : Index) (a m : Nat) : bext [X, L] [a, m] = [bsize X a, bsize L m] := rfl

/-- Writing one block of a matrix leaves the others. -/
theorem putBlock_spec [CommRing K] {X L : Index} {d : QDense K} (h : WF [X, L.dag] d.offsets d.size) {i n off : Nat} (hm : (⟨[i, n], off⟩ : BlOf) ∈ d.offsets)
    (f : Nat → Nat → K) :
    ∃ d', putBlock X L d i n f = .ok d' ∧ d'.offsets = d.offsets ∧ d'.size = d.size ∧
      ∀ a m x k, a < X.nblock → m < L.nblock → x < bsize X a → k < bsize L m →
        elem d' [X, L.dag] [a, m] [x, k] = if a = i ∧ m = n then f x k else elem d [X, L.dag] [a, m] [x, k] := by
  have hv := (valid2 rfl).1 (h.valid _ hm)
  have hi : i < X.nblock := hv.1
  have hn : n < L.nblock := hv.2
  have hg : getBlock d [i, n] = some off := getBlock_mem h hm
  have hb := (h.tile.bounds _ hm).2
  have hbd : bdim [X, L.dag] [i, n] = bsize X i * bsize L n := by
    simp [bdim, bext, show bsize L.dag n = bsize L n from rfl]
  dsimp only at hb
  rw [hbd] at hb
  obtain ⟨d', e1, e2, e3, e4, e5⟩ := putMat_spec d off (bsize X i) (bsize L n) f hb
  refine ⟨d', ?_, e2, e3, ?_⟩
  · unfold putBlock
    rw [hg]
    simp only [blocksize0_ok hi, blocksize0_ok hn, Res.bind_ok, e1]
  · intro a m x k ha hm' hx hk
    have hwf' : WF [X, L.dag] d'.offsets d'.size := by rw [e2, e3]; exact h
    have hval : Valid (nb [X, L.dag]) [a, m] := (valid2 rfl).2 ⟨ha, hm'⟩
    have hgeq : getBlock d' [a, m] = getBlock d [a, m] := by unfold getBlock; rw [e2]; simp
    have hrank : rank (bext [X, L.dag] [a, m]) [x, k] = x + bsize X a * k := by
      rw [bext2]; simp [rank]
    have hu : x + bsize X a * k < bsize X a * bsize L m := by
      have : bsize X a * k + bsize X a ≤ bsize X a * bsize L m := by
        rw [← Nat.mul_succ]; exact Nat.mul_le_mul_left _ hk
      omega
    unfold elem
    rw [hgeq]
    cases hg2 : getBlock d [a, m] with
    | none =>
      rw [if_neg]
      rintro ⟨rfl, rfl⟩
      rw [hg] at hg2; cases hg2
    | some o =>
      dsimp only
      rw [hrank]
      by_cases he : a = i ∧ m = n
      · obtain ⟨rfl, rfl⟩ := he
        rw [hg] at hg2
        cases hg2
        rw [if_pos ⟨rfl, rfl⟩, e4 _ hu, Nat.add_mul_mod_self_left, Nat.mod_eq_of_lt hx, Nat.add_mul_div_left _ _ (by omega), Nat.div_eq_of_lt hx, Nat.zero_add]
      · rw [if_neg he]
        apply e5
        have hm2 := getBlock_some h hval hg2
        have hne : (⟨[a, m], o⟩ : BlOf) ≠ ⟨[i, n], off⟩ := by
          intro e; apply he; simpa using congrArg BlOf.block e
        have hdis := h.disjoint hm2 hm hne
        dsimp only at hdis
        rw [hbd] at hdis
        have hbd2 : bdim [X, L.dag] [a, m] = bsize X a * bsize L m := by
          simp [bdim, bext, show bsize L.dag m = bsize L m from rfl]
        rw [hbd2] at hdis
        intro k' hk'
        omega

theorem putVec_spec (D : DSto R) (p : Nat) (xs : List R) (h : p + xs.length ≤ D.len) :
    ∃ D', putVec D p xs = .ok D' ∧ D'.len = D.len ∧ (∀ k (hk : k < xs.length), D'.data (p + k) = xs[k]) ∧
      ∀ a, (a < p ∨ p + xs.length ≤ a) → D'.data a = D.data a := by
  induction xs generalizing D p with
  | nil => exact ⟨D, rfl, rfl, by simp, fun _ _ => rfl⟩
  | cons x xs ih =>
    simp only [List.length_cons] at h
    obtain ⟨D', e1, e2, e3, e4⟩ := ih { D with data := fun a => if a = p then x else D.data a } (p + 1) (by dsimp only; omega)
    refine ⟨D', ?_, e2, ?_, ?_⟩
    · rw [putVec, if_pos (by omega), e1]
    · intro k hk
      cases k with
      | zero =>
        rw [Nat.add_zero, e4 p (Or.inl (by omega))]
        simp
      | succ k =>
        have := e3 k (by simpa using hk)
        rw [show p + (k + 1) = p + 1 + k by omega, this]
        simp
    · intro a ha
      rw [e4 a (by simp only [List.length_cons] at ha; omega)]
      dsimp only
      rw [if_neg (by simp only [List.length_cons] at ha; omega)]

/-- Writing one block of the diagonal. -/
theorem putDiag_spec {L L' : Index} (hz : szs L' = szs L) {D : DSto R} (hlen : D.len = (szs L).sum) {n : Nat} (hn : n < L.nblock) {xs : List R} (hx : xs.length = bsize L n)
    (hpos : xs ≠ []) :
    ∃ D', putDiag L L' D n xs = .ok D' ∧ D'.len = D.len ∧ (∀ k (hk : k < xs.length), D'.data (gl L n k) = xs[k]) ∧
      ∀ m k, m < L.nblock → m ≠ n → k < bsize L m → D'.data (gl L m k) = D.data (gl L m k) := by
  have hn' : n < L'.nblock := by rw [← szs_length, hz, szs_length]; exact hn
  have hb : bsize L' n = bsize L n := by rw [bsize, hz]; rfl
  have hposl : 0 < xs.length := List.length_pos_iff.2 hpos
  have hle : ((szs L).take n).sum + bsize L n ≤ (szs L).sum := by
    have := gl_lt hn (u := bsize L n - 1) (by omega)
    unfold gl at this
    omega
  obtain ⟨D', e1, e2, e3, e4⟩ := putVec_spec D ((szs L).take n).sum xs (by rw [hlen, hx]; exact hle)
  refine ⟨D', ?_, e2, e3, ?_⟩
  · unfold putDiag
    simp only [boundsLoop, sectorStart_ok (Nat.le_of_lt hn), sectorStart_ok (Nat.le_of_lt hn'), blocksize0_ok hn, blocksize0_ok hn', Res.bind_ok, hz, hb,
      Nat.zero_max, Nat.max_self, Nat.min_self]
    rw [if_neg (by omega), e1]
  · intro m k hm hmn hk
    apply e4
    by_contra hc
    push Not at hc
    have := gl_inj (I := L) (b := n) (u := gl L m k - ((szs L).take n).sum) (b' := m) (u' := k) hn (by omega) hm hk (by unfold gl at hc ⊢; omega)
    omega

/-! ## The loop -/

/-- Element of `U` after the kept blocks with numbers below `N` are written. -/
def uEnt [Zero K] (ks : List (Kept R K)) (N a m x k : Nat) : K := (ks[m]?).elim 0 fun q => if m < N ∧ a = q.i1 then q.U x k else 0

/-- The same for `V`. -/
def vEnt [Zero K] (ks : List (Kept R K)) (N a m x k : Nat) : K := (ks[m]?).elim 0 fun q => if m < N ∧ a = q.i2 then q.V x k else 0

/-- What is in the storages after the kept blocks with numbers below `N` are written. -/
structure AsmInv [CommRing K] (uI vI L L' : Index) (ks : List (Kept R K)) (U V : QDense K) (N : Nat) (s : Asm R K) : Prop where
  uo : s.U.offsets = U.offsets
  us : s.U.size = U.size
  vo : s.V.offsets = V.offsets
  vs : s.V.size = V.size
  dl : s.D.len = (szs L).sum
  ue : ∀ a m x k, a < uI.nblock → m < L.nblock → x < bsize uI a → k < bsize L m → elem s.U [uI, L.dag] [a, m] [x, k] = uEnt ks N a m x k
  ve : ∀ a m x k, a < vI.nblock → m < L'.nblock → x < bsize vI a → k < bsize L' m → elem s.V [vI, L'.dag] [a, m] [x, k] = vEnt ks N a m x k
  de : ∀ m k q, m < N → ks[m]? = some q → ∀ hk : k < q.d.length, s.D.data (gl L m k) = q.d[k]

/-- What the loop needs: the blocks exist and have the right sizes. -/
structure AsmPre (uI vI L L' : Index) (ks : List (Kept R K)) (U V : QDense K) : Prop where
  uwf : WF [uI, L.dag] U.offsets U.size
  vwf : WF [vI, L'.dag] V.offsets V.size
  len : L.nblock = ks.length
  eqs : szs L' = szs L
  ub : ∀ (m : Nat) (q : Kept R K), ks[m]? = some q → ∃ off, (⟨[q.i1, m], off⟩ : BlOf) ∈ U.offsets
  vb : ∀ (m : Nat) (q : Kept R K), ks[m]? = some q → ∃ off, (⟨[q.i2, m], off⟩ : BlOf) ∈ V.offsets
  sz : ∀ (m : Nat) (q : Kept R K), ks[m]? = some q → q.d.length = bsize L m
  ne : ∀ (m : Nat) (q : Kept R K), ks[m]? = some q → q.d ≠ []

theorem asmStep_inv [CommRing K] {uI vI L L' : Index} {ks : List (Kept R K)} {U V : QDense K} (h : AsmPre uI vI L L' ks U V) {N : Nat} {q : Kept R K}
    (hq : ks[N]? = some q) {s : Asm R K} (hs : AsmInv uI vI L L' ks U V N s) :
    ∃ s', asmStep uI vI L L' s (q, N) = .ok s' ∧ AsmInv uI vI L L' ks U V (N + 1) s' := by
  have hN : N < ks.length := (List.getElem?_eq_some_iff.1 hq).1
  obtain ⟨offu, hu⟩ := h.ub N q hq
  obtain ⟨offv, hv⟩ := h.vb N q hq
  obtain ⟨U', a1, a2, a3, a4⟩ := putBlock_spec (X := uI) (L := L) (d := s.U) (by rw [hs.uo, hs.us]; exact h.uwf) (by rw [hs.uo]; exact hu) q.U
  obtain ⟨V', b1, b2, b3, b4⟩ := putBlock_spec (X := vI) (L := L') (d := s.V) (by rw [hs.vo, hs.vs]; exact h.vwf) (by rw [hs.vo]; exact hv) q.V
  obtain ⟨D', c1, c2, c3, c4⟩ := putDiag_spec (L := L) (L' := L') h.eqs (D := s.D) hs.dl (n := N) (by rw [h.len]; exact hN) (h.sz N q hq) (h.ne N q hq)
  refine ⟨⟨U', D', V'⟩, ?_, ?_⟩
  · unfold asmStep
    dsimp only
    rw [a1]
    simp only [Res.bind_ok]
    rw [c1]
    simp only [Res.bind_ok]
    rw [b1]
    rfl
  · refine ⟨by rw [← hs.uo, ← a2], by rw [← hs.us, ← a3], by rw [← hs.vo, ← b2], by rw [← hs.vs, ← b3], by rw [← hs.dl, ← c2], ?_, ?_, ?_⟩
    · intro a m x k ha hm hx hk
      dsimp only
      rw [a4 a m x k ha hm hx hk, hs.ue a m x k ha hm hx hk]
      unfold uEnt
      by_cases he : m = N
      · subst he
        rw [hq]
        simp
      · cases ks[m]? with
        | none => simp [he]
        | some q' =>
          simp only [he, and_false, if_false, Option.elim_some]
          congr 1
          simp only [eq_iff_iff]
          constructor
          · rintro ⟨h1, h2⟩; exact ⟨by omega, h2⟩
          · rintro ⟨h1, h2⟩; exact ⟨by omega, h2⟩
    · intro a m x k ha hm hx hk
      dsimp only
      rw [b4 a m x k ha hm hx hk, hs.ve a m x k ha hm hx hk]
      unfold vEnt
      by_cases he : m = N
      · subst he
        rw [hq]
        simp
      · cases ks[m]? with
        | none => simp [he]
        | some q' =>
          simp only [he, and_false, if_false, Option.elim_some]
          congr 1
          simp only [eq_iff_iff]
          constructor
          · rintro ⟨h1, h2⟩; exact ⟨by omega, h2⟩
          · rintro ⟨h1, h2⟩; exact ⟨by omega, h2⟩
    · intro m k q' hm hq' hk
      dsimp only
      by_cases he : m = N
      · subst he
        rw [hq] at hq'
        cases hq'
        exact c3 k hk
      · rw [c4 m k (by rw [h.len]; omega) he (by rw [← h.sz m q' hq']; exact hk)]
        exact hs.de m k q' (by omega) hq' hk

theorem asmLoop [CommRing K] {uI vI L L' : Index} {ks : List (Kept R K)} {U V : QDense K} (h : AsmPre uI vI L L' ks U V) {s : Asm R K}
    (hs : AsmInv uI vI L L' ks U V 0 s) :
    ∃ s', Res.foldM (asmStep uI vI L L') s ks.zipIdx = .ok s' ∧ AsmInv uI vI L L' ks U V ks.length s' := by
  have key : ∀ N, N ≤ ks.length → ∃ s', Res.foldM (asmStep uI vI L L') s (ks.zipIdx.take N) = .ok s' ∧ AsmInv uI vI L L' ks U V N s' := by
    intro N
    induction N with
    | zero => intro _; exact ⟨s, rfl, hs⟩
    | succ N ih =>
      intro hN
      obtain ⟨s1, e1, e2⟩ := ih (by omega)
      have hlt : N < ks.zipIdx.length := by simp; omega
      obtain ⟨s2, f1, f2⟩ := asmStep_inv h (N := N) (q := ks[N]) (List.getElem?_eq_getElem (by omega)) e2
      refine ⟨s2, ?_, f2⟩
      rw [List.take_succ_eq_append_getElem hlt, Res.foldM_append, e1]
      simp [f1]
  obtain ⟨s', e1, e2⟩ := key ks.length (le_refl _)
  exact ⟨s', by rw [← e1, List.take_of_length_le (by simp)], e2⟩

theorem sectors_ok (X : Index) (ps : List (Nat × Nat)) (h : ∀ p ∈ ps, p.1 < X.nblock) :
    sectors X ps = .ok (ps.map fun p => ((X.qns.getD p.1 (Verif.QN.QN.default, 0)).1, p.2)) := by
  induction ps with
  | nil => rfl
  | cons p ps ih =>
    have hp : p.1 < X.qns.length := h p (by simp)
    have hq : qn0 X p.1 = .ok (X.qns.getD p.1 (Verif.QN.QN.default, 0)).1 := by
      unfold qn0
      rw [List.getD_eq_getElem?_getD, List.getElem?_eq_getElem hp]
      rfl
    rw [sectors, hq, ih fun q hq => h q (by simp [hq])]
    rfl

/-- The new index next to `X`. -/
def newI (id : Nat) (X : Index) (t : TagSet) (ps : List (Nat × Nat)) : Index :=
  newIndex id X.dir t (ps.map fun p => ((X.qns.getD p.1 (Verif.QN.QN.default, 0)).1, p.2))

theorem newI_szs (id : Nat) (X : Index) (t : TagSet) (ps : List (Nat × Nat)) : szs (newI id X t ps) = ps.map (·.2) := by
  simp [szs, newI, newIndex]

theorem newI_dim (id : Nat) (X : Index) (t : TagSet) (ps : List (Nat × Nat)) : (newI id X t ps).dim = (ps.map (·.2)).sum := by
  simp [newI, newIndex, Function.comp_def]

theorem newI_nblock (id : Nat) (X : Index) (t : TagSet) (ps : List (Nat × Nat)) : (newI id X t ps).nblock = ps.length := by
  simp [newI, newIndex, Index.nblock]

/-- The storage of the first factor has the blocks which are written. -/
theorem ofDiv_new [CommRing K] {M : Verif.QN.Name → Int} {u : List Verif.QN.Name} {X : Index} (hdir : X.dir = 1 ∨ X.dir = -1) (hX : 0 < X.nblock) (hok : SectorsOK M u [X])
    (id : Nat) (t : TagSet) {ps : List (Nat × Nat)} (hne : ps ≠ []) (hps : ∀ p ∈ ps, p.1 < X.nblock) {fuel : Nat} (hf : X.nblock * ps.length < fuel)
    (hmax : ((X.nblock * ps.length : Nat) : Int) ≤ offMax) :
    ∃ d : QDense K, ofDiv fuel [X, (newI id X t ps).dag] Verif.QN.QN.default = some (.ok d) ∧ WF [X, (newI id X t ps).dag] d.offsets d.size ∧
      (∀ a, d.data a = 0) ∧ (∀ m p, ps[m]? = some p → ∃ off, (⟨[p.1, m], off⟩ : BlOf) ∈ d.offsets) ∧
      ∀ o ∈ d.offsets, ∀ n, norm (M n) (fluxVal [X, (newI id X t ps).dag] o.block n) = 0 := by
  have hnb : (newI id X t ps).dag.nblock = ps.length := newI_nblock id X t ps
  have hprod : (nb [X, (newI id X t ps).dag]).prod = X.nblock * ps.length := by simp [nb, hnb]
  have hsec : SectorsOK M u [X, (newI id X t ps).dag] := by
    refine ⟨hok.1, fun I hI q hq => ?_⟩
    simp only [List.mem_cons, List.not_mem_nil, or_false] at hI
    rcases hI with rfl | rfl
    · exact hok.2 I (by simp) q hq
    · simp only [newI, newIndex, Index.dag, List.mem_map] at hq
      obtain ⟨p, hp, rfl⟩ := hq
      have := hps p hp
      rw [List.getD_eq_getElem?_getD, List.getElem?_eq_getElem this]
      exact hok.2 X (by simp) X.qns[p.1] (List.getElem_mem this)
  have h0 : ∀ n, (Verif.QN.QN.default).val n = 0 := by
    intro n; rw [(Verif.QN.WF.default M).val]; rfl
  obtain ⟨d, e1, e2, e3, e4⟩ := C21_ofDiv (K := K) (M := M) (u := u) (is := [X, (newI id X t ps).dag]) (by simp)
    (by
      intro I hI
      simp only [List.mem_cons, List.not_mem_nil, or_false] at hI
      rcases hI with rfl | rfl
      · exact hX
      · rw [hnb]; exact List.length_pos_iff.2 hne) hsec (Verif.QN.isQN_default M) fuel (by rw [hprod]; exact hf) (by rw [hprod]; exact hmax)
  refine ⟨d, e1, e2, e3, ?_, ?_⟩
  · intro m p hp
    have hm : m < ps.length := (List.getElem?_eq_some_iff.1 hp).1
    have hpm := hps p (List.mem_of_getElem? hp)
    obtain ⟨o, ho, hb⟩ := (e4 [p.1, m]).2 ⟨by
        refine List.Forall₂.cons hpm (List.Forall₂.cons ?_ List.Forall₂.nil)
        simpa [newI, newIndex, Index.dag] using hm, by
        intro n
        rw [h0]
        simp only [fluxVal, List.zipWith_cons_cons, List.zipWith_nil_left, List.sum_cons, List.sum_nil, newI, newIndex, Index.dag]
        rw [List.getD_eq_getElem?_getD (l := ps.map _), List.getElem?_map, hp]
        simp only [Option.map_some, Option.getD_some]
        rcases hdir with h | h <;> simp [h, norm]⟩
    refine ⟨o.offset, ?_⟩
    rw [← hb]; exact ho
  · intro o ho n
    rw [← h0 n]
    exact ((e4 o.block).1 ⟨o, ho, rfl⟩).2 n

/-- The result of `assemble`. -/
structure AsmOK [CommRing K] (M : Verif.QN.Name → Int) (uI vI : Index) (ks : List (Kept R K)) (out : Out R K) : Prop where
  uwf : WF [uI, out.L.dag] out.s.U.offsets out.s.U.size
  vwf : WF [vI, out.L'.dag] out.s.V.offsets out.s.V.size
  szL : szs out.L = ks.map fun k => k.d.length
  szR : szs out.L' = ks.map fun k => k.d.length
  dimL : out.L.dim = (ks.map fun k => k.d.length).sum
  dimR : out.L'.dim = (ks.map fun k => k.d.length).sum
  dlen : out.s.D.len = (ks.map fun k => k.d.length).sum
  qL : out.L.qns = ks.map fun k => ((uI.qns.getD k.i1 (Verif.QN.QN.default, 0)).1, k.d.length)
  qR : out.L'.qns = ks.map fun k => ((vI.qns.getD k.i2 (Verif.QN.QN.default, 0)).1, k.d.length)
  dirL : out.L.dir = uI.dir
  dirR : out.L'.dir = vI.dir
  ue : ∀ a m x k, a < uI.nblock → m < out.L.nblock → x < bsize uI a → k < bsize out.L m →
    elem out.s.U [uI, out.L.dag] [a, m] [x, k] = uEnt ks ks.length a m x k
  ve : ∀ a m x k, a < vI.nblock → m < out.L'.nblock → x < bsize vI a → k < bsize out.L' m →
    elem out.s.V [vI, out.L'.dag] [a, m] [x, k] = vEnt ks ks.length a m x k
  de : ∀ m k q, ks[m]? = some q → ∀ hk : k < q.d.length, out.s.D.data (gl out.L m k) = q.d[k]
  uflux : ∀ o ∈ out.s.U.offsets, ∀ n, norm (M n) (fluxVal [uI, out.L.dag] o.block n) = 0
  vflux : ∀ o ∈ out.s.V.offsets, ∀ n, norm (M n) (fluxVal [vI, out.L'.dag] o.block n) = 0

theorem elem_zero [CommRing K] {d : QDense K} (h : ∀ a, d.data a = 0) (is : IndexSet) (b : Block) (u : List Nat) : elem d is b u = 0 := by
  unfold elem
  cases getBlock d b with
  | none => rfl
  | some o => exact h _

theorem assemble_spec [Zero R] [CommRing K] {M : Verif.QN.Name → Int} {u : List Verif.QN.Name} {uI vI : Index} (hdu : uI.dir = 1 ∨ uI.dir = -1) (hdv : vI.dir = 1 ∨ vI.dir = -1)
    (hu : 0 < uI.nblock) (hv : 0 < vI.nblock) (hok : SectorsOK M u [uI, vI]) (fuel idL idR : Nat) (tL tR : TagSet) (te : R) {ks : List (Kept R K)} (hne : ks ≠ [])
    (hk : ∀ k ∈ ks, k.i1 < uI.nblock ∧ k.i2 < vI.nblock ∧ k.d ≠ [])
    (hf1 : uI.nblock * ks.length < fuel) (hf2 : vI.nblock * ks.length < fuel)
    (hm1 : ((uI.nblock * ks.length : Nat) : Int) ≤ offMax) (hm2 : ((vI.nblock * ks.length : Nat) : Int) ≤ offMax) :
    ∃ out, assemble fuel idL idR tL tR uI vI te ks = some (.ok out) ∧ out.L.id = idL ∧ out.L'.id = idR ∧ out.L.tags = tL ∧ out.L'.tags = tR ∧ out.truncerr = te ∧
      AsmOK M uI vI ks out := by
  set p1 := ks.map fun k => (k.i1, k.d.length) with hp1
  set p2 := ks.map fun k => (k.i2, k.d.length) with hp2
  have hs1 : ∀ p ∈ p1, p.1 < uI.nblock := by
    intro p hp; obtain ⟨k, hk', rfl⟩ := List.mem_map.1 hp; exact (hk k hk').1
  have hs2 : ∀ p ∈ p2, p.1 < vI.nblock := by
    intro p hp; obtain ⟨k, hk', rfl⟩ := List.mem_map.1 hp; exact (hk k hk').2.1
  have hl1 : p1.length = ks.length := by simp [p1]
  have hl2 : p2.length = ks.length := by simp [p2]
  obtain ⟨U, a1, a2, a3, a4, a5⟩ := ofDiv_new (K := K) hdu hu (⟨hok.1, fun I hI => hok.2 I (by simp_all)⟩ : SectorsOK M u [uI]) idL tL (ps := p1)
    (by simpa [p1] using hne) hs1 (fuel := fuel) (by rw [hl1]; exact hf1) (by rw [hl1]; exact hm1)
  obtain ⟨V, b1, b2, b3, b4, b5⟩ := ofDiv_new (K := K) hdv hv (⟨hok.1, fun I hI => hok.2 I (by simp_all)⟩ : SectorsOK M u [vI]) idR tR (ps := p2)
    (by simpa [p2] using hne) hs2 (fuel := fuel) (by rw [hl2]; exact hf2) (by rw [hl2]; exact hm2)
  set L := newI idL uI tL p1 with hL
  set L' := newI idR vI tR p2 with hL'
  have hsz1 : szs L = ks.map fun k => k.d.length := by rw [hL, newI_szs, hp1, List.map_map]; rfl
  have hsz2 : szs L' = ks.map fun k => k.d.length := by rw [hL', newI_szs, hp2, List.map_map]; rfl
  have hd1 : L.dim = (ks.map fun k => k.d.length).sum := by rw [hL, newI_dim, hp1, List.map_map]; rfl
  have hd2 : L'.dim = (ks.map fun k => k.d.length).sum := by rw [hL', newI_dim, hp2, List.map_map]; rfl
  have hpre : AsmPre uI vI L L' ks U V := by
    refine ⟨a2, b2, by rw [hL, newI_nblock, hl1], by rw [hsz1, hsz2], ?_, ?_, ?_, ?_⟩
    · intro m q hq
      exact a4 m (q.i1, q.d.length) (by rw [hp1, List.getElem?_map, hq]; rfl)
    · intro m q hq
      exact b4 m (q.i2, q.d.length) (by rw [hp2, List.getElem?_map, hq]; rfl)
    · intro m q hq
      rw [bsize, hsz1, List.getD_eq_getElem?_getD, List.getElem?_map, hq]
      rfl
    · intro m q hq; exact (hk q (List.mem_of_getElem? hq)).2.2
  obtain ⟨s, e1, e2⟩ := asmLoop hpre (s := ⟨U, ⟨L.dim, fun _ => 0⟩, V⟩) ⟨rfl, rfl, rfl, rfl, by rw [hsz1]; exact hd1, by
      intro a m x k _ _ _ _
      rw [elem_zero a3]
      unfold uEnt
      cases hm : ks[m]? <;> simp, by
      intro a m x k _ _ _ _
      rw [elem_zero b3]
      unfold vEnt
      cases hm : ks[m]? <;> simp, by intro m k q hm; omega⟩
  refine ⟨⟨L, L', s, te⟩, ?_, rfl, rfl, rfl, rfl, rfl, ?_⟩
  · unfold assemble
    rw [← hp1, ← hp2, sectors_ok uI p1 hs1, sectors_ok vI p2 hs2]
    dsimp only
    have q1 : newIndex idL uI.dir tL (p1.map fun p => ((uI.qns.getD p.1 (Verif.QN.QN.default, 0)).1, p.2)) = L := rfl
    have q2 : newIndex idR vI.dir tR (p2.map fun p => ((vI.qns.getD p.1 (Verif.QN.QN.default, 0)).1, p.2)) = L' := rfl
    rw [q1, q2, a1, b1]
    simp only [Run.bind]
    rw [if_neg (by rw [hd1, hd2]; simp), e1]
    rfl
  · refine ⟨by rw [e2.uo, e2.us]; exact a2, by rw [e2.vo, e2.vs]; exact b2, hsz1, hsz2, hd1, hd2, by rw [e2.dl, hsz1], ?_, ?_, rfl, rfl, e2.ue, e2.ve, ?_, ?_, ?_⟩
    · simp only [hL, newI, newIndex, hp1, List.map_map]; rfl
    · simp only [hL', newI, newIndex, hp2, List.map_map]; rfl
    · intro m k q hq hk'
      exact e2.de m k q (List.getElem?_eq_some_iff.1 hq).1 hq hk'
    · dsimp only; rw [e2.uo]; exact a5
    · dsimp only; rw [e2.vo]; exact b5

end Verif.Svd
