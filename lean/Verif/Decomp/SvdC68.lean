import Verif.Decomp.SvdSums

/-!
# C68: the decomposition of a matrix with quantum numbers
-/

namespace Verif.Svd

open Verif.Index (Index IndexSet)
open Verif.QDense
open Verif.Decomp (Opts)
open Verif.Tensor
open Verif.TagSet (TagSet)
open Verif.QN (IsQN norm)

variable {R K : Type*}

/-! ## The blocks of the matrix -/

/-- The blocks in terms of the row index `uI` and the column index `vI`: sizes, different places, and the elements. -/
structure BlocksOK [CommRing K] (is : IndexSet) (tr : Bool) (uI vI : Index) (A : QDense K) (bs : List (Ord2Block K)) : Prop where
  rng : ∀ B ∈ bs, B.i1 < uI.nblock ∧ B.i2 < vI.nblock ∧ B.nr = bsize uI B.i1 ∧ B.nc = bsize vI B.i2
  dist : bs.Pairwise fun B B' => ¬(B.i1 = B'.i1 ∧ B.i2 = B'.i2)
  mem : ∀ B ∈ bs, ∃ o ∈ A.offsets, o.block = if tr then [B.i2, B.i1] else [B.i1, B.i2]
  elt : ∀ a b x y, a < uI.nblock → b < vI.nblock → x < bsize uI a → y < bsize vI b →
    elem A is (if tr then [b, a] else [a, b]) (if tr then [y, x] else [x, y]) = (bs.map fun B => if B.i1 = a ∧ B.i2 = b then B.M x y else 0).sum

/-- One block of a matrix. -/
def mkBlock (I J : Index) (tr : Bool) (A : QDense K) (o : BlOf) : Ord2Block K :=
  let a := o.block.getD 0 0
  let b := o.block.getD 1 0
  let M : Nat → Nat → K := fun i j => A.data ((o.offset + (i + bsize I a * j) : Nat) : Int)
  if tr then ⟨bsize J b, bsize I a, fun i j => M j i, b, a⟩ else ⟨bsize I a, bsize J b, M, a, b⟩

theorem getBlocks_map {I J : Index} (tr : Bool) (A : QDense K) (os : List BlOf) (h : ∀ o ∈ os, Valid (nb [I, J]) o.block) :
    getBlocks I J tr A os = .ok (os.map (mkBlock I J tr A)) := by
  induction os with
  | nil => rfl
  | cons o os ih =>
    have hv := h o (by simp)
    have hb : ∃ a b, o.block = [a, b] ∧ a < I.nblock ∧ b < J.nblock := by
      generalize o.block = bl at hv
      simp only [nb, List.map_cons, List.map_nil] at hv
      cases hv with
      | cons h1 h2 => cases h2 with
        | cons h3 h4 => cases h4; exact ⟨_, _, rfl, h1, h3⟩
    obtain ⟨a, b, e, ha, hb⟩ := hb
    have : ord2Block I J tr A o = .ok (mkBlock I J tr A o) := by
      unfold ord2Block mkBlock
      rw [e]
      simp only [blocksize0_ok ha, blocksize0_ok hb, Res.bind_ok]
      rfl
    rw [getBlocks, this, ih fun o ho => h o (by simp [ho])]
    rfl

theorem two_of_valid {I J : Index} {b : Block} (hv : Valid (nb [I, J]) b) : b = [b.getD 0 0, b.getD 1 0] ∧ b.getD 0 0 < I.nblock ∧ b.getD 1 0 < J.nblock := by
  simp only [nb, List.map_cons, List.map_nil] at hv
  cases hv with
  | cons h1 h2 => cases h2 with
    | cons h3 h4 => cases h4; exact ⟨rfl, h1, h3⟩

theorem getBlocks_ok [CommRing K] {uI vI : Index} (tr : Bool) {A : QDense K} (h : WF (if tr then [vI, uI] else [uI, vI]) A.offsets A.size) :
    ∃ bs, getBlocks (if tr then vI else uI) (if tr then uI else vI) tr A A.offsets = .ok bs ∧ bs.length = A.offsets.length ∧
      BlocksOK (if tr then [vI, uI] else [uI, vI]) tr uI vI A bs := by
  set I := if tr then vI else uI with hI
  set J := if tr then uI else vI with hJ
  have his : (if tr then [vI, uI] else [uI, vI]) = [I, J] := by cases tr <;> rfl
  rw [his] at h ⊢
  refine ⟨_, getBlocks_map tr A A.offsets fun o ho => h.valid o ho, by simp, ?_⟩
  have hdist : A.offsets.Pairwise fun o o' => ¬(o.block = o'.block) := h.sorted.imp fun {a b} hab e => by
    rw [e, blockLt_irrefl] at hab; cases hab
  have hpl : ∀ o, (mkBlock I J tr A o).i1 = (if tr then o.block.getD 1 0 else o.block.getD 0 0) ∧ (mkBlock I J tr A o).i2 = (if tr then o.block.getD 0 0 else o.block.getD 1 0) := by
    intro o; unfold mkBlock; cases tr <;> exact ⟨rfl, rfl⟩
  have hd : (A.offsets.map (mkBlock I J tr A)).Pairwise fun B B' => ¬(B.i1 = B'.i1 ∧ B.i2 = B'.i2) := by
    rw [List.pairwise_map]
    refine hdist.imp_of_mem fun {o o'} ho ho' hne e => hne ?_
    have h1 := two_of_valid (h.valid o ho)
    have h2 := two_of_valid (h.valid o' ho')
    rw [(hpl o).1, (hpl o).2, (hpl o').1, (hpl o').2] at e
    rw [h1.1, h2.1]
    cases tr
    · rw [show o.block.getD 0 0 = o'.block.getD 0 0 from e.1, show o.block.getD 1 0 = o'.block.getD 1 0 from e.2]
    · rw [show o.block.getD 0 0 = o'.block.getD 0 0 from e.2, show o.block.getD 1 0 = o'.block.getD 1 0 from e.1]
  refine ⟨?_, hd, ?_, ?_⟩
  · intro B hB
    obtain ⟨o, ho, rfl⟩ := List.mem_map.1 hB
    have h1 := two_of_valid (h.valid o ho)
    cases tr <;> simp only [mkBlock, hI, hJ, Bool.false_eq_true, if_false, if_true] at h1 ⊢
    · exact ⟨h1.2.1, h1.2.2, trivial, trivial⟩
    · exact ⟨h1.2.2, h1.2.1, trivial, trivial⟩
  · intro B hB
    obtain ⟨o, ho, rfl⟩ := List.mem_map.1 hB
    refine ⟨o, ho, ?_⟩
    have h1 := two_of_valid (h.valid o ho)
    rw [(hpl o).1, (hpl o).2]
    cases tr <;> simpa using h1.1
  · intro a b x y ha hb hx hy
    set bl : Block := if tr then [b, a] else [a, b] with hbl
    have hval : Valid (nb [I, J]) bl := by
      rw [hbl, hI, hJ]
      cases tr <;> simp [nb, Valid, ha, hb]
    by_cases hm : ∃ o ∈ A.offsets, o.block = bl
    · obtain ⟨o, ho, e⟩ := hm
      have hB : mkBlock I J tr A o ∈ A.offsets.map (mkBlock I J tr A) := List.mem_map.2 ⟨o, ho, rfl⟩
      have e1 : (mkBlock I J tr A o).i1 = a ∧ (mkBlock I J tr A o).i2 = b := by
        rw [(hpl o).1, (hpl o).2, e, hbl]
        cases tr <;> exact ⟨rfl, rfl⟩
      have := list_sum_one hd (fun C => C.M x y) hB
      rw [e1.1, e1.2] at this
      rw [this]
      unfold elem
      rw [← e, getBlock_mem h ho]
      simp only [mkBlock, e, hbl]
      cases tr <;> simp [bext2, rank]
    · push Not at hm
      unfold elem
      rw [getBlock_notMem h hval hm]
      dsimp only
      rw [list_sum_zero]
      intro B hB
      obtain ⟨o, ho, rfl⟩ := List.mem_map.1 hB
      rw [if_neg]
      rintro ⟨h1, h2⟩
      apply hm o ho
      have h3 := two_of_valid (h.valid o ho)
      rw [(hpl o).1] at h1
      rw [(hpl o).2] at h2
      rw [h3.1, hbl]
      cases tr
      · rw [show o.block.getD 0 0 = a from h1, show o.block.getD 1 0 = b from h2]; rfl
      · rw [show o.block.getD 1 0 = a from h1, show o.block.getD 0 0 = b from h2]; rfl

/-! ## The kept blocks -/

section
variable [Field R] [LinearOrder R] [CommRing K] [StarRing K] [Algebra R K]

/-- What a block becomes when `c` values are kept. -/
def kept (B : Ord2Block K) (F : Fac R K) (c : Nat) : Kept R K := ⟨B.i1, B.i2, F.U, F.d.take c, fun i j => star (F.V i j)⟩

/-- The kept blocks with the block, its decomposition and the number of values. -/
def triples : List (Ord2Block K × Fac R K) → List Nat → List (Ord2Block K × Fac R K × Nat)
  | (B, F) :: fs, c :: cs => (B, F, c) :: triples fs cs
  | _, _ => []

theorem clip_eq {d : List R} (h : ∀ x ∈ d, 0 ≤ x) (c : Nat) : (d.take c).map (max · 0) = d.take c := by
  conv_rhs => rw [← List.map_id (d.take c)]
  refine List.map_congr_left fun x hx => ?_
  rw [max_eq_left (h x (List.mem_of_mem_take hx))]
  rfl

theorem keep_eq (clip : Bool) (fs : List (Ord2Block K × Fac R K)) (cs : List Nat) (h : ∀ p ∈ fs, ∀ x ∈ p.2.d, (0 : R) ≤ x) :
    keep clip fs cs = ((triples fs cs).filter fun t => t.2.2 ≠ 0).map fun t => kept t.1 t.2.1 t.2.2 := by
  induction fs generalizing cs with
  | nil => cases cs <;> rfl
  | cons p fs ih =>
    obtain ⟨B, F⟩ := p
    cases cs with
    | nil => rfl
    | cons c cs =>
      rw [keep, triples, List.filter_cons]
      by_cases hc : c = 0
      · simp only [hc, if_true, ne_eq, not_true_eq_false, decide_false, Bool.false_eq_true, if_false]
        exact ih _ fun p hp => h p (by simp [hp])
      · rw [if_neg hc, ih _ fun p hp => h p (by simp [hp]), clip_eq (h (B, F) (by simp))]
        simp [kept, hc]

theorem filter_sum {β α : Type*} [AddCommMonoid α] (p : β → Bool) (l : List β) (f : β → α) (h : ∀ t ∈ l, p t = false → f t = 0) :
    ((l.filter p).map f).sum = (l.map f).sum := by
  induction l with
  | nil => rfl
  | cons t l ih =>
    rw [List.filter_cons]
    cases hp : p t with
    | true => simp [ih fun t' ht' => h t' (by simp [ht'])]
    | false => simp [ih fun t' ht' => h t' (by simp [ht']), h t (by simp) hp]

theorem sum_elim {β α : Type*} [AddCommMonoid α] (l : List β) (f : β → α) :
    ∑ m ∈ Finset.range l.length, (l[m]?).elim 0 f = (l.map f).sum := by
  induction l with
  | nil => rfl
  | cons t l ih =>
    rw [List.length_cons, Finset.sum_range_succ', List.map_cons, List.sum_cons, add_comm]
    simp only [List.getElem?_cons_succ, ih, List.getElem?_cons_zero, Option.elim_some]

theorem triples_fst (fs : List (Ord2Block K × Fac R K)) (cs : List Nat) (h : cs.length = fs.length) : (triples fs cs).map (fun t => (t.1, t.2.1)) = fs := by
  induction fs generalizing cs with
  | nil => cases cs <;> rfl
  | cons p fs ih =>
    cases cs with
    | nil => simp at h
    | cons c cs => rw [triples, List.map_cons, ih cs (by simpa using h)]

theorem triples_snd (fs : List (Ord2Block K × Fac R K)) (cs : List Nat) (h : cs.length = fs.length) : (triples fs cs).map (fun t => t.2.2) = cs := by
  induction fs generalizing cs with
  | nil => cases cs with
    | nil => rfl
    | cons c cs => simp at h
  | cons p fs ih =>
    cases cs with
    | nil => simp at h
    | cons c cs => rw [triples, List.map_cons, ih cs (by simpa using h)]

theorem triples_mem {fs : List (Ord2Block K × Fac R K)} {cs : List Nat} (h : List.Forall₂ (fun (p : Ord2Block K × Fac R K) c => c ≤ p.2.d.length) fs cs)
    {t} (ht : t ∈ triples fs cs) : (t.1, t.2.1) ∈ fs ∧ t.2.2 ≤ t.2.1.d.length := by
  induction h with
  | nil => simp [triples] at ht
  | cons h1 h2 ih =>
    rename_i p c fs cs
    obtain ⟨B, F⟩ := p
    rw [triples] at ht
    rcases List.mem_cons.1 ht with rfl | ht
    · exact ⟨by simp, h1⟩
    · exact ⟨List.mem_cons_of_mem _ (ih ht).1, (ih ht).2⟩

/-- An element read from a matrix. -/
def at2 (d : QDense K) (X Y : Index) (i j : Nat) : K :=
  match getElt d [X, Y] [i, j] with
  | .ok x => x
  | _ => 0

theorem getElt2 {X Y : Index} {d : QDense K} (h : WF [X, Y] d.offsets d.size) {a m x k : Nat} (ha : a < X.nblock) (hm : m < Y.nblock) (hx : x < bsize X a) (hk : k < bsize Y m) :
    getElt d [X, Y] [gl X a x, gl Y m k] = .ok (elem d [X, Y] [a, m] [x, k]) :=
  getElt_glue (u := [x, k]) h ((valid2 rfl).2 ⟨ha, hm⟩) (by rw [bext2]; simp [Valid, hx, hk])

/-- Every value of an index lies in one sector. -/
theorem split_value {X : Index} {i : Nat} (h : i < (szs X).sum) : ∃ a x, a < X.nblock ∧ x < bsize X a ∧ i = gl X a x := by
  obtain ⟨a, x, h1, h2, h3⟩ := exists_gl (szs X) i h
  exact ⟨a, x, by rw [← szs_length]; exact h1, h2, h3⟩

/-- The elements of the three tensors and their relation to the kept blocks. -/
structure Elts (uI vI : Index) (ks : List (Kept R K)) (out : Out R K) (Ue : Nat → Nat → K) (De : Nat → R) (Ve : Nat → Nat → K) : Prop where
  ru : ∀ i < (szs uI).sum, ∀ l < out.L.dim, getElt out.s.U [uI, out.L.dag] [i, l] = .ok (Ue i l)
  rv : ∀ j < (szs vI).sum, ∀ l < out.L.dim, getElt out.s.V [vI, out.L'.dag] [j, l] = .ok (Ve j l)
  rd : ∀ l < out.L.dim, ∀ l' < out.L.dim, out.s.D.elt l l' = .ok (if l = l' then De l else 0)
  u : ∀ a m x k, a < uI.nblock → m < ks.length → x < bsize uI a → k < bsize out.L m → Ue (gl uI a x) (gl out.L m k) = uEnt ks ks.length a m x k
  v : ∀ a m x k, a < vI.nblock → m < ks.length → x < bsize vI a → k < bsize out.L m → Ve (gl vI a x) (gl out.L m k) = vEnt ks ks.length a m x k
  d : ∀ m k q, ks[m]? = some q → k < q.d.length → De (gl out.L m k) = q.d.getD k 0

theorem elts_of {M : Verif.QN.Name → Int} {uI vI : Index} {ks : List (Kept R K)} {out : Out R K} (h : AsmOK M uI vI ks out) :
    Elts uI vI ks out (at2 out.s.U uI out.L.dag) out.s.D.data (at2 out.s.V vI out.L'.dag) := by
  have hL : out.L.nblock = ks.length := by rw [← szs_length, h.szL]; simp
  have hL' : out.L'.nblock = ks.length := by rw [← szs_length, h.szR]; simp
  have hgl : ∀ m k, gl out.L' m k = gl out.L m k := by intro m k; unfold gl; rw [h.szL, h.szR]
  have hgd : ∀ m k, gl out.L.dag m k = gl out.L m k := fun _ _ => rfl
  have hgd' : ∀ m k, gl out.L'.dag m k = gl out.L m k := fun m k => hgl m k
  have hbs : ∀ m, bsize out.L' m = bsize out.L m := by intro m; unfold bsize; rw [h.szL, h.szR]
  have hdim : out.L.dim = (szs out.L).sum := by rw [h.dimL, h.szL]
  have hu : ∀ a m x k, a < uI.nblock → m < ks.length → x < bsize uI a → k < bsize out.L m →
      getElt out.s.U [uI, out.L.dag] [gl uI a x, gl out.L m k] = .ok (uEnt ks ks.length a m x k) := by
    intro a m x k ha hm hx hk
    rw [← h.ue a m x k ha (by rw [hL]; exact hm) hx hk]
    exact getElt2 h.uwf ha (by show m < out.L.nblock; rw [hL]; exact hm) hx hk
  have hv : ∀ a m x k, a < vI.nblock → m < ks.length → x < bsize vI a → k < bsize out.L m →
      getElt out.s.V [vI, out.L'.dag] [gl vI a x, gl out.L m k] = .ok (vEnt ks ks.length a m x k) := by
    intro a m x k ha hm hx hk
    rw [← h.ve a m x k ha (by rw [hL']; exact hm) hx (by rw [hbs]; exact hk), ← hgd']
    exact getElt2 h.vwf ha (by show m < out.L'.nblock; rw [hL']; exact hm) hx (by show k < bsize out.L' m; rw [hbs]; exact hk)
  refine ⟨?_, ?_, ?_, ?_, ?_, ?_⟩
  · intro i hi l hl
    obtain ⟨a, x, ha, hx, rfl⟩ := split_value hi
    obtain ⟨m, k, hm, hk, rfl⟩ := split_value (X := out.L) (by rw [← hdim]; exact hl)
    rw [hL] at hm
    unfold at2
    rw [hu a m x k ha hm hx hk]
  · intro i hi l hl
    obtain ⟨a, x, ha, hx, rfl⟩ := split_value hi
    obtain ⟨m, k, hm, hk, rfl⟩ := split_value (X := out.L) (by rw [← hdim]; exact hl)
    rw [hL] at hm
    unfold at2
    rw [hv a m x k ha hm hx hk]
  · intro l hl l' _
    unfold DSto.elt
    rw [h.dimL, ← h.dlen] at hl
    by_cases he : l = l'
    · rw [if_neg (by simpa using he), if_pos hl, if_pos he]
    · rw [if_pos he, if_neg he]
  · intro a m x k ha hm hx hk
    unfold at2
    rw [hu a m x k ha hm hx hk]
  · intro a m x k ha hm hx hk
    unfold at2
    rw [hv a m x k ha hm hx hk]
  · intro m k q hq hk
    rw [h.de m k q hq hk, List.getD_eq_getElem?_getD, List.getElem?_eq_getElem hk]
    rfl

/-- The product of the three tensors in terms of the kept blocks. -/
theorem product_eq {M : Verif.QN.Name → Int} {uI vI : Index} {ks : List (Kept R K)} {out : Out R K} (h : AsmOK M uI vI ks out) {Ue Ve : Nat → Nat → K} {De : Nat → R}
    (he : Elts uI vI ks out Ue De Ve) {a b x y : Nat} (ha : a < uI.nblock) (hb : b < vI.nblock) (hx : x < bsize uI a) (hy : y < bsize vI b) :
    ∑ l ∈ Finset.range out.L.dim, Ue (gl uI a x) l * algebraMap R K (De l) * Ve (gl vI b y) l =
      (ks.map fun q => if q.i1 = a ∧ q.i2 = b then ∑ k ∈ Finset.range q.d.length, q.U x k * algebraMap R K (q.d.getD k 0) * q.V y k else 0).sum := by
  have hdim : out.L.dim = (szs out.L).sum := by rw [h.dimL, h.szL]
  have hlen : (szs out.L).length = ks.length := by rw [h.szL]; simp
  rw [hdim, sum_sizes, hlen, ← sum_elim]
  refine Finset.sum_congr rfl fun m hm => ?_
  have hm := Finset.mem_range.1 hm
  obtain ⟨q, hq⟩ : ∃ q, ks[m]? = some q := ⟨ks[m], List.getElem?_eq_getElem hm⟩
  have hsz : bsize out.L m = q.d.length := by
    rw [bsize, h.szL, List.getD_eq_getElem?_getD, List.getElem?_map, hq]; rfl
  rw [hq, Option.elim_some]
  have : ∀ k ∈ Finset.range ((szs out.L).getD m 0), Ue (gl uI a x) (((szs out.L).take m).sum + k) * algebraMap R K (De (((szs out.L).take m).sum + k)) *
      Ve (gl vI b y) (((szs out.L).take m).sum + k) = if q.i1 = a ∧ q.i2 = b then q.U x k * algebraMap R K (q.d.getD k 0) * q.V y k else 0 := by
    intro k hk
    have hk : k < bsize out.L m := Finset.mem_range.1 hk
    have e1 := he.u a m x k ha hm hx hk
    have e2 := he.v b m y k hb hm hy hk
    have e3 := he.d m k q hq (by rw [← hsz]; exact hk)
    unfold gl at e1 e2 e3
    rw [show gl uI a x = ((szs uI).take a).sum + x from rfl, show gl vI b y = ((szs vI).take b).sum + y from rfl, e1, e2, e3]
    unfold uEnt vEnt
    rw [hq]
    simp only [Option.elim_some, hm, true_and]
    by_cases h1 : q.i1 = a
    · by_cases h2 : q.i2 = b
      · simp [h1, h2]
      · simp [h2, Ne.symm h2]
    · simp [h1, Ne.symm h1]
  rw [Finset.sum_congr rfl this, show (szs out.L).getD m 0 = q.d.length from hsz]
  by_cases hc : q.i1 = a ∧ q.i2 = b
  · simp only [if_pos hc]
  · simp [if_neg hc]

/-- The sum of the squares of the diagonal elements. -/
theorem diag_sq {M : Verif.QN.Name → Int} {uI vI : Index} {ks : List (Kept R K)} {out : Out R K} (h : AsmOK M uI vI ks out) {Ue Ve : Nat → Nat → K} {De : Nat → R}
    (he : Elts uI vI ks out Ue De Ve) :
    ∑ l ∈ Finset.range out.L.dim, De l * De l = (ks.map fun q => ∑ k ∈ Finset.range q.d.length, q.d.getD k 0 * q.d.getD k 0).sum := by
  have hdim : out.L.dim = (szs out.L).sum := by rw [h.dimL, h.szL]
  have hlen : (szs out.L).length = ks.length := by rw [h.szL]; simp
  rw [hdim, sum_sizes, hlen, ← sum_elim]
  refine Finset.sum_congr rfl fun m hm => ?_
  have hm := Finset.mem_range.1 hm
  obtain ⟨q, hq⟩ : ∃ q, ks[m]? = some q := ⟨ks[m], List.getElem?_eq_getElem hm⟩
  have hsz : (szs out.L).getD m 0 = q.d.length := by
    rw [h.szL, List.getD_eq_getElem?_getD, List.getElem?_map, hq]; rfl
  rw [hq, Option.elim_some, hsz]
  refine Finset.sum_congr rfl fun k hk => ?_
  have e3 := he.d m k q hq (Finset.mem_range.1 hk)
  unfold gl at e3
  rw [e3]

/-- Columns of `U` are orthonormal when every row sector occurs in one block. -/
theorem iso_u {M : Verif.QN.Name → Int} {uI vI : Index} {ks : List (Kept R K)} {out : Out R K} (h : AsmOK M uI vI ks out) {Ue Ve : Nat → Nat → K} {De : Nat → R}
    (he : Elts uI vI ks out Ue De Ve) (hr : ∀ q ∈ ks, q.i1 < uI.nblock)
    (hd : ∀ (m m' : Nat) (q q' : Kept R K), ks[m]? = some q → ks[m']? = some q' → q.i1 = q'.i1 → m = m')
    (hi : ∀ q ∈ ks, ∀ k < q.d.length, ∀ k' < q.d.length, ∑ x ∈ Finset.range (bsize uI q.i1), star (q.U x k) * q.U x k' = if k = k' then 1 else 0) :
    ∀ l < out.L.dim, ∀ l' < out.L.dim, ∑ i ∈ Finset.range (szs uI).sum, star (Ue i l) * Ue i l' = if l = l' then 1 else 0 := by
  have hL : out.L.nblock = ks.length := by rw [← szs_length, h.szL]; simp
  have hdim : out.L.dim = (szs out.L).sum := by rw [h.dimL, h.szL]
  intro l hl l' hl'
  obtain ⟨m, k, hm, hk, rfl⟩ := split_value (X := out.L) (by rw [← hdim]; exact hl)
  obtain ⟨m', k', hm', hk', rfl⟩ := split_value (X := out.L) (by rw [← hdim]; exact hl')
  have hm0 := hm
  have hm0' := hm'
  rw [hL] at hm hm'
  obtain ⟨q, hq⟩ : ∃ q, ks[m]? = some q := ⟨ks[m], List.getElem?_eq_getElem hm⟩
  obtain ⟨q', hq'⟩ : ∃ q', ks[m']? = some q' := ⟨ks[m'], List.getElem?_eq_getElem hm'⟩
  have hqm := List.mem_of_getElem? hq
  have hsz : ∀ m q, ks[m]? = some q → bsize out.L m = q.d.length := by
    intro m q hq
    rw [bsize, h.szL, List.getD_eq_getElem?_getD, List.getElem?_map, hq]; rfl
  rw [sum_sizes]
  have h1 : ∀ a ∈ Finset.range (szs uI).length, ∑ x ∈ Finset.range ((szs uI).getD a 0), star (Ue (((szs uI).take a).sum + x) (gl out.L m k)) * Ue (((szs uI).take a).sum + x) (gl out.L m' k') =
      if a = q.i1 ∧ a = q'.i1 then ∑ x ∈ Finset.range ((szs uI).getD a 0), star (q.U x k) * q'.U x k' else 0 := by
    intro a ha
    have ha : a < uI.nblock := by rw [← szs_length]; exact Finset.mem_range.1 ha
    have : ∀ x ∈ Finset.range ((szs uI).getD a 0), star (Ue (((szs uI).take a).sum + x) (gl out.L m k)) * Ue (((szs uI).take a).sum + x) (gl out.L m' k') =
        if a = q.i1 ∧ a = q'.i1 then star (q.U x k) * q'.U x k' else 0 := by
      intro x hx
      have hx : x < bsize uI a := Finset.mem_range.1 hx
      have e1 := he.u a m x k ha hm hx hk
      have e2 := he.u a m' x k' ha hm' hx hk'
      rw [show gl uI a x = ((szs uI).take a).sum + x from rfl] at e1 e2
      rw [e1, e2]
      unfold uEnt
      rw [hq, hq']
      simp only [Option.elim_some, hm, hm', true_and]
      by_cases c1 : a = q.i1
      · by_cases c2 : a = q'.i1
        · rw [if_pos c1, if_pos c2, if_pos ⟨c1, c2⟩]
        · rw [if_neg c2, if_neg (show ¬(a = q.i1 ∧ a = q'.i1) from fun e => c2 e.2), mul_zero]
      · rw [if_neg c1, if_neg (show ¬(a = q.i1 ∧ a = q'.i1) from fun e => c1 e.1), star_zero, zero_mul]
    rw [Finset.sum_congr rfl this]
    by_cases hc : a = q.i1 ∧ a = q'.i1
    · simp only [if_pos hc]
    · simp [if_neg hc]
  rw [Finset.sum_congr rfl h1]
  by_cases hqq : q.i1 = q'.i1
  · have hmm := hd m m' q q' hq hq' hqq
    subst hmm
    rw [hq] at hq'
    cases hq'
    simp only [and_self]
    rw [Finset.sum_eq_single_of_mem q.i1 (Finset.mem_range.2 (by rw [szs_length]; exact hr q hqm)), if_pos rfl]
    · have := hi q hqm k (by rw [← hsz m q hq]; exact hk) k' (by rw [← hsz m q hq]; exact hk')
      rw [show (szs uI).getD q.i1 0 = bsize uI q.i1 from rfl, this]
      congr 1
      simp [gl]
    · intro a _ hne; rw [if_neg hne]
  · rw [Finset.sum_eq_zero]
    · rw [if_neg]
      intro e
      have := gl_inj hm0 hk hm0' hk' e
      obtain ⟨rfl, _⟩ := this
      rw [hq] at hq'
      cases hq'
      exact hqq rfl
    · intro a _
      rw [if_neg fun e => hqq (e.1.symm.trans e.2)]

/-- Columns of `V` are orthonormal when every column sector occurs in one block. -/
theorem iso_v {M : Verif.QN.Name → Int} {uI vI : Index} {ks : List (Kept R K)} {out : Out R K} (h : AsmOK M uI vI ks out) {Ue Ve : Nat → Nat → K} {De : Nat → R}
    (he : Elts uI vI ks out Ue De Ve) (hr : ∀ q ∈ ks, q.i2 < vI.nblock)
    (hd : ∀ (m m' : Nat) (q q' : Kept R K), ks[m]? = some q → ks[m']? = some q' → q.i2 = q'.i2 → m = m')
    (hi : ∀ q ∈ ks, ∀ k < q.d.length, ∀ k' < q.d.length, ∑ x ∈ Finset.range (bsize vI q.i2), star (q.V x k) * q.V x k' = if k = k' then 1 else 0) :
    ∀ l < out.L.dim, ∀ l' < out.L.dim, ∑ i ∈ Finset.range (szs vI).sum, star (Ve i l) * Ve i l' = if l = l' then 1 else 0 := by
  have hL : out.L.nblock = ks.length := by rw [← szs_length, h.szL]; simp
  have hdim : out.L.dim = (szs out.L).sum := by rw [h.dimL, h.szL]
  intro l hl l' hl'
  obtain ⟨m, k, hm, hk, rfl⟩ := split_value (X := out.L) (by rw [← hdim]; exact hl)
  obtain ⟨m', k', hm', hk', rfl⟩ := split_value (X := out.L) (by rw [← hdim]; exact hl')
  have hm0 := hm
  have hm0' := hm'
  rw [hL] at hm hm'
  obtain ⟨q, hq⟩ : ∃ q, ks[m]? = some q := ⟨ks[m], List.getElem?_eq_getElem hm⟩
  obtain ⟨q', hq'⟩ : ∃ q', ks[m']? = some q' := ⟨ks[m'], List.getElem?_eq_getElem hm'⟩
  have hqm := List.mem_of_getElem? hq
  have hsz : ∀ m q, ks[m]? = some q → bsize out.L m = q.d.length := by
    intro m q hq
    rw [bsize, h.szL, List.getD_eq_getElem?_getD, List.getElem?_map, hq]; rfl
  rw [sum_sizes]
  have h1 : ∀ a ∈ Finset.range (szs vI).length, ∑ x ∈ Finset.range ((szs vI).getD a 0), star (Ve (((szs vI).take a).sum + x) (gl out.L m k)) * Ve (((szs vI).take a).sum + x) (gl out.L m' k') =
      if a = q.i2 ∧ a = q'.i2 then ∑ x ∈ Finset.range ((szs vI).getD a 0), star (q.V x k) * q'.V x k' else 0 := by
    intro a ha
    have ha : a < vI.nblock := by rw [← szs_length]; exact Finset.mem_range.1 ha
    have : ∀ x ∈ Finset.range ((szs vI).getD a 0), star (Ve (((szs vI).take a).sum + x) (gl out.L m k)) * Ve (((szs vI).take a).sum + x) (gl out.L m' k') =
        if a = q.i2 ∧ a = q'.i2 then star (q.V x k) * q'.V x k' else 0 := by
      intro x hx
      have hx : x < bsize vI a := Finset.mem_range.1 hx
      have e1 := he.v a m x k ha hm hx hk
      have e2 := he.v a m' x k' ha hm' hx hk'
      rw [show gl vI a x = ((szs vI).take a).sum + x from rfl] at e1 e2
      rw [e1, e2]
      unfold vEnt
      rw [hq, hq']
      simp only [Option.elim_some, hm, hm', true_and]
      by_cases c1 : a = q.i2
      · by_cases c2 : a = q'.i2
        · rw [if_pos c1, if_pos c2, if_pos ⟨c1, c2⟩]
        · rw [if_neg c2, if_neg (show ¬(a = q.i2 ∧ a = q'.i2) from fun e => c2 e.2), mul_zero]
      · rw [if_neg c1, if_neg (show ¬(a = q.i2 ∧ a = q'.i2) from fun e => c1 e.1), star_zero, zero_mul]
    rw [Finset.sum_congr rfl this]
    by_cases hc : a = q.i2 ∧ a = q'.i2
    · simp only [if_pos hc]
    · simp [if_neg hc]
  rw [Finset.sum_congr rfl h1]
  by_cases hqq : q.i2 = q'.i2
  · have hmm := hd m m' q q' hq hq' hqq
    subst hmm
    rw [hq] at hq'
    cases hq'
    simp only [and_self]
    rw [Finset.sum_eq_single_of_mem q.i2 (Finset.mem_range.2 (by rw [szs_length]; exact hr q hqm)), if_pos rfl]
    · have := hi q hqm k (by rw [← hsz m q hq]; exact hk) k' (by rw [← hsz m q hq]; exact hk')
      rw [show (szs vI).getD q.i2 0 = bsize vI q.i2 from rfl, this]
      congr 1
      simp [gl]
    · intro a _ hne; rw [if_neg hne]
  · rw [Finset.sum_eq_zero]
    · rw [if_neg]
      intro e
      have := gl_inj hm0 hk hm0' hk' e
      obtain ⟨rfl, _⟩ := this
      rw [hq] at hq'
      cases hq'
      exact hqq rfl
    · intro a _
      rw [if_neg fun e => hqq (e.1.symm.trans e.2)]

end

end Verif.Svd
