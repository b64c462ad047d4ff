import Verif.QDense.Props
import Verif.QDense.AddProps

/-!
# Combiners of QN indices: the combined index

Model of the QN branch of `combiner` (`/repo/itensor/itensor.cc:1489-1565`) and of the storage
`QCombiner` it fills (`/repo/itensor/itdata/qcombiner.h:26-104`). Property C27: the sectors of the
combined index are tiled by the blocks of the combined indices.

Simplifications. The identification number and the tags of the new index are arguments (they come from
the random generator and from `Args`). `Index(qnstorage,dir,tags)` sums the sector sizes in a `long`
and keeps an `int`; here it is a natural number. The `Range` of `QCombiner` is kept as the list of the
numbers of blocks (its strides are those of `Range::init`).
-/

namespace Verif.QDense

open Verif.Index (Index IndexSet)
open Verif.Tensor
open Verif.QN (IsQN norm)
open Verif.TagSet (TagSet)
open Verif.Tensor.Range (offset offset_zero_eq)

/-- `QCombiner::BlockRange` (qcombiner.h:28-32). -/
structure BlockRange where
  block : Nat
  start : Nat
  extent : Nat
  deriving DecidableEq, Repr

/-- The direction of the combined index (itensor.cc:1493-1508): the argument `IndexDir` when given,
else `In` if all indices are `In`, else `Out`. -/
def combDir (arg : Option Int) (inds : IndexSet) : Int :=
  match arg with
  | some d => d
  | none => if inds.all (fun I => I.dir == -1) then -1 else 1

/-- The loop over the indices for one block tuple (itensor.cc:1526-1530). -/
def combQN (cdir : Int) : IndexSet → Block → Verif.QN.QN → Nat → Res (Verif.QN.QN × Nat)
  | [], _, q, m => .ok (q, m)
  | _ :: _, [], _, _ => .ub
  | I :: is, b :: bs, q, m =>
    (qn0 I b).bind fun x => (blocksize0 I b).bind fun n =>
    combQN cdir is bs (q.add ((x.scale I.dir).scale cdir)) (m * n)

/-- What the loop over block tuples changes: `qms` and the store of the `QCombiner`. -/
structure CombState where
  qms : List (Verif.QN.QN × Nat)
  store : List BlockRange

/-- One pass of the loop over block tuples (itensor.cc:1520-1543); `setBlockRange` (qcombiner.h:92-102)
uses `at`, which throws outside the store. -/
def combStep (cdir : Int) (inds : IndexSet) (s : CombState) (I : RIter) : Res CombState :=
  (combQN cdir inds I.ind Verif.QN.QN.default 1).bind fun qm =>
  if I.off < 0 ∨ (s.store.length : Int) ≤ I.off then .throw
  else
    match s.qms.findIdx? (fun p => p.1.eq qm.1) with
    | some n =>
      let m := (s.qms.getD n (Verif.QN.QN.default, 0)).2
      .ok ⟨s.qms.modify n (fun p => (p.1, p.2 + qm.2)), s.store.set I.off.toNat ⟨n, m, qm.2⟩⟩
    | none => .ok ⟨s.qms ++ [qm], s.store.set I.off.toNat ⟨s.qms.length, 0, qm.2⟩⟩

/-- `combiner(inds,args)` for QN indices (itensor.cc:1469-1565): the index set of the combiner (the new
index first) and the store of its `QCombiner`. -/
def qcombiner (fuel : Nat) (id : Nat) (tags : TagSet) (arg : Option Int) (inds : IndexSet) :
    Run (IndexSet × List BlockRange) :=
  if inds = [] then some .throw
  else
    let cdir := combDir arg inds
    let R := Range.init (inds.map (·.nblock))
    match RIter.forEach 0 R fuel (RIter.begin 0 R) with
    | none => none
    | some (.ok l) => some ((Res.foldM (combStep cdir inds)
        ⟨[], List.replicate (inds.map (·.nblock)).prod ⟨0, 0, 0⟩⟩ l).bind fun s =>
        .ok ((⟨id, (s.qms.map (·.2)).sum, cdir, if tags.plev < 0 then tags.setPrime 0 else tags, s.qms⟩ : Index) :: inds.map Index.dag, s.store))
    | some .throw => some .throw
    | some .ub => some .ub

/-! ## The loop over block tuples -/

/-- Flux of a block tuple as the loop sums it: with the direction of the combined index. -/
def cflux (cdir : Int) : IndexSet → Block → Verif.QN.QN → Verif.QN.QN
  | I :: is, b :: bs, q =>
    cflux cdir is bs (q.add ((((I.qns.getD b (Verif.QN.QN.default, 0)).1).scale I.dir).scale cdir))
  | _, _, q => q

theorem combQN_ok (cdir : Int) {is : IndexSet} {b : Block} (h : Valid (nb is) b) (q : Verif.QN.QN) (m : Nat) :
    combQN cdir is b q m = .ok (cflux cdir is b q, m * bdim is b) := by
  induction is generalizing b q m with
  | nil => cases h; simp [combQN, cflux, bdim, bext]
  | cons I is ih =>
    simp only [nb, List.map_cons] at h
    cases h with
    | cons h1 h2 =>
      rename_i x bs
      have hx : x < I.qns.length := h1
      have hg : I.qns.getD x (Verif.QN.QN.default, 0) = I.qns[x] := by
        rw [List.getD_eq_getElem?_getD, List.getElem?_eq_getElem hx]; rfl
      simp only [combQN, qn0, blocksize0, List.getElem?_eq_getElem hx, Res.bind_ok, ih h2, cflux, hg]
      simp only [bdim, bext, List.zipWith_cons_cons, List.prod_cons]
      rw [show bsize I x = I.qns[x].2 by simp [bsize, szs, List.getD_eq_getElem?_getD, hx], Nat.mul_assoc]

/-- The pass of the loop without the store: `(q,m)` goes to a sector of `qms`. -/
def putQ (qms : List (Verif.QN.QN × Nat)) (qm : Verif.QN.QN × Nat) : List (Verif.QN.QN × Nat) × BlockRange :=
  match qms.findIdx? (fun p => p.1.eq qm.1) with
  | some n => (qms.modify n (fun p => (p.1, p.2 + qm.2)), ⟨n, (qms.getD n (Verif.QN.QN.default, 0)).2, qm.2⟩)
  | none => (qms ++ [qm], ⟨qms.length, 0, qm.2⟩)

def putAll (qms : List (Verif.QN.QN × Nat)) : List (Verif.QN.QN × Nat) → List (Verif.QN.QN × Nat) × List BlockRange
  | [] => (qms, [])
  | qm :: l => let r := putQ qms qm; let r' := putAll r.1 l; (r'.1, r.2 :: r'.2)

theorem combFold (cdir : Int) (inds : IndexSet) (l : List RIter) (k : Nat) (qms) (done rest : List BlockRange)
    (hv : ∀ s ∈ l, Valid (nb inds) s.ind) (hk : done.length = k) (hr : rest.length = l.length)
    (ho : l.map (·.off) = (List.range' k l.length).map (fun (n : Nat) => (n : Int))) :
    Res.foldM (combStep cdir inds) ⟨qms, done ++ rest⟩ l =
      .ok ⟨(putAll qms (l.map fun s => (cflux cdir inds s.ind Verif.QN.QN.default, bdim inds s.ind))).1,
        done ++ (putAll qms (l.map fun s => (cflux cdir inds s.ind Verif.QN.QN.default, bdim inds s.ind))).2⟩ := by
  induction l generalizing k qms done rest with
  | nil =>
    have : rest = [] := List.length_eq_zero_iff.1 hr
    simp [putAll, this]
  | cons s l ih =>
    cases rest with
    | nil => simp at hr
    | cons r0 rest =>
    simp only [List.map_cons, List.length_cons, List.range'_succ, List.cons.injEq] at ho
    obtain ⟨ho1, ho2⟩ := ho
    have hset : ∀ br, (done ++ r0 :: rest).set s.off.toNat br = (done ++ [br]) ++ rest := by
      intro br
      rw [ho1, Int.toNat_natCast, ← hk]
      simp
    rw [Res.foldM_cons]
    have hstep : combStep cdir inds ⟨qms, done ++ r0 :: rest⟩ s =
        .ok ⟨(putQ qms (cflux cdir inds s.ind Verif.QN.QN.default, bdim inds s.ind)).1,
          (done ++ [(putQ qms (cflux cdir inds s.ind Verif.QN.QN.default, bdim inds s.ind)).2]) ++ rest⟩ := by
      unfold combStep
      rw [combQN_ok cdir (hv s (by simp)), Res.bind_ok, if_neg (by rw [ho1]; simp; omega)]
      simp only [Nat.one_mul, hset]
      unfold putQ
      cases qms.findIdx? (fun p => p.1.eq (cflux cdir inds s.ind Verif.QN.QN.default)) <;> rfl
    rw [hstep, Res.bind_ok, ih (k + 1) _ _ _ (fun s hs => hv s (by simp [hs])) (by simp [hk]) (by simpa using hr) ho2]
    simp only [List.map_cons, putAll, List.append_assoc, List.singleton_append]

theorem qn_eq_comm (a b : Verif.QN.QN) : a.eq b = b.eq a := by
  unfold Verif.QN.QN.eq; exact Bool.and_comm _ _

theorem putAll_length (qms l) : (putAll qms l).2.length = l.length := by
  induction l generalizing qms with
  | nil => rfl
  | cons qm l ih => simp [putAll, ih]

/-- Size of sector `n` so far. -/
def szOf (qms : List (Verif.QN.QN × Nat)) (n : Nat) : Nat := (qms.getD n (Verif.QN.QN.default, 0)).2

/-- One pass: the sectors keep their quantum numbers, and exactly the chosen one grows by the extent. -/
theorem put_spec (qms : List (Verif.QN.QN × Nat)) (qm : Verif.QN.QN × Nat) :
    (putQ qms qm).2.extent = qm.2 ∧ (putQ qms qm).2.start = szOf qms (putQ qms qm).2.block ∧
    (putQ qms qm).2.block < (putQ qms qm).1.length ∧
    (∃ p, (putQ qms qm).1[(putQ qms qm).2.block]? = some p ∧ (p.1.eq qm.1 = true ∨ p.1 = qm.1)) ∧
    (∀ n, szOf (putQ qms qm).1 n = szOf qms n + if (putQ qms qm).2.block = n then qm.2 else 0) ∧
    (∀ (n : Nat) (p : Verif.QN.QN × Nat), qms[n]? = some p → ∃ p' : Verif.QN.QN × Nat, (putQ qms qm).1[n]? = some p' ∧ p'.1 = p.1) ∧
    (((qms.map (·.1)).Pairwise fun a b => a.eq b = false) →
      ((putQ qms qm).1.map (·.1)).Pairwise fun a b => a.eq b = false) := by
  unfold putQ
  cases hf : qms.findIdx? (fun p => p.1.eq qm.1) with
  | some n =>
    obtain ⟨hn, h1, h2⟩ := List.findIdx?_eq_some_iff_getElem.1 hf
    dsimp only
    refine ⟨rfl, rfl, by simpa using hn, ⟨(qms[n].1, qms[n].2 + qm.2), by simp [hn], Or.inl h1⟩, ?_, ?_, ?_⟩
    · intro k
      unfold szOf
      rw [List.getD_eq_getElem?_getD, List.getD_eq_getElem?_getD, List.getElem?_modify]
      by_cases hk : n = k
      · subst hk; simp [hn]
      · simp [hk]
    · intro k p hp
      rw [List.getElem?_modify, hp]
      by_cases hk : n = k
      · simp [hk]
      · simp [hk]
    · intro h
      have : (qms.modify n (fun p => (p.1, p.2 + qm.2))).map (·.1) = qms.map (·.1) := by
        apply List.ext_getElem?
        intro k
        rw [List.getElem?_map, List.getElem?_map, List.getElem?_modify]
        cases qms[k]? with
        | none => simp
        | some p => by_cases hk : n = k <;> simp [hk]
      rw [this]; exact h
  | none =>
    have hno := List.findIdx?_eq_none_iff.1 hf
    dsimp only
    refine ⟨rfl, by simp [szOf], by simp, ⟨qm, by simp, Or.inr rfl⟩, ?_, ?_, ?_⟩
    · intro k
      unfold szOf
      rw [List.getD_eq_getElem?_getD, List.getD_eq_getElem?_getD]
      by_cases hk : k < qms.length
      · rw [List.getElem?_append_left hk, if_neg (by omega), Nat.add_zero]
      · by_cases hk2 : qms.length = k
        · subst hk2; simp
        · rw [if_neg hk2, List.getElem?_eq_none (by simp; omega), List.getElem?_eq_none (by omega)]; rfl
    · intro k p hp
      have hk : k < qms.length := (List.getElem?_eq_some_iff.1 hp).1
      exact ⟨p, by rw [List.getElem?_append_left hk, hp], rfl⟩
    · intro h
      rw [List.map_append, List.pairwise_append]
      refine ⟨h, by simp, ?_⟩
      intro a ha b hb
      obtain ⟨p, hp, rfl⟩ := List.mem_map.1 ha
      simp only [List.map_cons, List.map_nil, List.mem_singleton] at hb
      subst hb
      simpa using hno p hp

theorem put_length (qms qm) : qms.length ≤ (putQ qms qm).1.length := by
  unfold putQ; split <;> simp

theorem putAll_length_le (qms l) : qms.length ≤ (putAll qms l).1.length := by
  induction l generalizing qms with
  | nil => exact le_refl _
  | cons qm l ih => exact (put_length qms qm).trans (ih _)

/-- The whole loop: quantum numbers of the sectors, sizes, and where the blocks go. -/
theorem putAll_spec (qms l : List (Verif.QN.QN × Nat)) :
    (∀ (k : Nat) (br : BlockRange) (qm : Verif.QN.QN × Nat), (putAll qms l).2[k]? = some br → l[k]? = some qm →
      br.extent = qm.2 ∧ ∃ p, (putAll qms l).1[br.block]? = some p ∧ (p.1.eq qm.1 = true ∨ p.1 = qm.1)) ∧
    (∀ (n : Nat) (p : Verif.QN.QN × Nat), qms[n]? = some p → ∃ p' : Verif.QN.QN × Nat, (putAll qms l).1[n]? = some p' ∧ p'.1 = p.1) ∧
    (((qms.map (·.1)).Pairwise fun a b => a.eq b = false) →
      ((putAll qms l).1.map (·.1)).Pairwise fun a b => a.eq b = false) ∧
    (∀ n, szOf qms n ≤ szOf (putAll qms l).1 n) ∧
    (∀ n, ∀ v, szOf qms n ≤ v → v < szOf (putAll qms l).1 n →
      ∃! k : Nat, ∃ br : BlockRange, (putAll qms l).2[k]? = some br ∧ br.block = n ∧ br.start ≤ v ∧ v < br.start + br.extent) ∧
    (∀ br ∈ (putAll qms l).2, szOf qms br.block ≤ br.start ∧
      br.start + br.extent ≤ szOf (putAll qms l).1 br.block) ∧
    ((putAll qms l).1.map (·.2)).sum = (qms.map (·.2)).sum + (l.map (·.2)).sum := by
  induction l generalizing qms with
  | nil =>
    refine ⟨by simp [putAll], fun n p h => ⟨p, h, rfl⟩, fun h => h, fun n => le_refl _, ?_, by simp [putAll], by simp [putAll]⟩
    intro n v h1 h2
    exact absurd (lt_of_le_of_lt h1 h2) (lt_irrefl _)
  | cons qm l ih =>
    obtain ⟨a1, a2, a3, ⟨p, a4, a4'⟩, a5, a6, a7⟩ := put_spec qms qm
    obtain ⟨i1, i2, i3, i4, i5, i6, i7⟩ := ih (putQ qms qm).1
    simp only [putAll]
    set r := putQ qms qm with hr
    refine ⟨?_, ?_, fun h => i3 (a7 h), ?_, ?_, ?_, ?_⟩
    · intro k br q h1 h2
      cases k with
      | zero =>
        simp only [List.getElem?_cons_zero, Option.some.injEq] at h1 h2
        subst h1; subst h2
        obtain ⟨p', e1, e2⟩ := i2 _ _ a4
        exact ⟨a1, p', e1, by rw [e2]; exact a4'⟩
      | succ k => exact i1 k br q (by simpa using h1) (by simpa using h2)
    · intro n p hp
      obtain ⟨p', e1, e2⟩ := a6 n p hp
      obtain ⟨p'', e3, e4⟩ := i2 n p' e1
      exact ⟨p'', e3, e4.trans e2⟩
    · intro n
      have := a5 n
      have := i4 n
      omega
    · intro n v h1 h2
      by_cases hv : szOf r.1 n ≤ v
      · obtain ⟨k, ⟨br, e1, e2, e3, e4⟩, hu⟩ := i5 n v hv h2
        refine ⟨k + 1, ⟨br, by simpa using e1, e2, e3, e4⟩, ?_⟩
        rintro k' ⟨br', f1, f2, f3, f4⟩
        cases k' with
        | zero =>
          simp only [List.getElem?_cons_zero, Option.some.injEq] at f1
          subst f1
          have := a5 n
          rw [if_pos f2, ← a1] at this
          rw [a2, f2] at f4
          omega
        | succ k' => rw [hu k' ⟨br', by simpa using f1, f2, f3, f4⟩]
      · have h5 := a5 n
        have hb : r.2.block = n := by
          by_contra hne
          rw [if_neg hne] at h5
          omega
        rw [if_pos hb] at h5
        refine ⟨0, ⟨r.2, by simp, hb, by rw [a2, hb]; exact h1, by rw [a2, hb, a1]; omega⟩, ?_⟩
        rintro k' ⟨br', f1, f2, f3, f4⟩
        cases k' with
        | zero => rfl
        | succ k' =>
          exfalso
          have := i6 br' (List.mem_of_getElem? (by simpa using f1))
          rw [f2] at this
          omega
    · intro br hbr
      rcases List.mem_cons.1 hbr with rfl | hbr
      · rw [a2]
        refine ⟨le_refl _, ?_⟩
        have := a5 r.2.block
        rw [if_pos rfl, ← a1] at this
        rw [← this]
        exact i4 _
      · obtain ⟨g1, g2⟩ := i6 br hbr
        have := a5 br.block
        exact ⟨by omega, g2⟩
    · rw [i7]
      have : (r.1.map (·.2)).sum = (qms.map (·.2)).sum + qm.2 := by
        rw [hr]
        unfold putQ
        cases hf : qms.findIdx? (fun p => p.1.eq qm.1) with
        | none => simp
        | some n =>
          obtain ⟨hn, _, _⟩ := List.findIdx?_eq_some_iff_getElem.1 hf
          dsimp only
          clear * - hn
          induction qms generalizing n with
          | nil => simp at hn
          | cons a qms ih =>
            cases n with
            | zero => simp; omega
            | succ n => have := ih n (by simpa using hn); simp at this ⊢; omega
      rw [this]
      simp only [List.map_cons, List.sum_cons]
      omega

/-! ## Sum over all blocks -/

theorem sum_mul_divmod (d P : Nat) (f g : Nat → Nat) :
    ∑ k ∈ Finset.range (d * P), f (k % d) * g (k / d) =
      (∑ i ∈ Finset.range d, f i) * ∑ j ∈ Finset.range P, g j := by
  rcases Nat.eq_zero_or_pos d with rfl | hd
  · simp
  induction P with
  | zero => simp
  | succ P ih =>
    rw [Nat.mul_succ, Finset.sum_range_add, ih, Finset.sum_range_succ, Nat.mul_add]
    congr 1
    rw [Finset.sum_mul]
    apply Finset.sum_congr rfl
    intro i hi
    have hi := Finset.mem_range.1 hi
    rw [Nat.mul_add_mod, Nat.mod_eq_of_lt hi, Nat.mul_add_div hd, Nat.div_eq_of_lt hi, Nat.add_zero]

theorem list_sum_range (f : Nat → Nat) (n : Nat) : ((List.range n).map f).sum = ∑ k ∈ Finset.range n, f k := by
  induction n with
  | zero => rfl
  | succ n ih => rw [List.range_succ, Finset.sum_range_succ, List.map_append, List.sum_append, ih]; simp

/-- The sizes of all blocks add up to the product of the dimensions. -/
theorem sum_bdim (is : IndexSet) : ((allInds (nb is)).map (bdim is)).sum = (dims is).prod := by
  induction is with
  | nil => simp [nb, allInds, unrank, bdim, bext, dims]
  | cons I is ih =>
    have h1 : (allInds (nb (I :: is))).map (bdim (I :: is)) =
        (List.range (I.nblock * (nb is).prod)).map fun k =>
          bsize I (k % I.nblock) * bdim is (unrank (nb is) (k / I.nblock)) := by
      simp only [nb, List.map_cons, allInds, List.prod_cons, List.map_map]
      rfl
    rw [h1, list_sum_range, sum_mul_divmod I.nblock (nb is).prod (fun i => bsize I i)
      (fun j => bdim is (unrank (nb is) j))]
    have h2 : ∑ j ∈ Finset.range (nb is).prod, bdim is (unrank (nb is) j) = (dims is).prod := by
      rw [← ih, ← list_sum_range, allInds, List.map_map]; rfl
    have h3 : ∑ i ∈ Finset.range I.nblock, bsize I i = (szs I).sum := by
      rw [← list_sum_range, ← szs_length]
      congr 1
      apply List.ext_getElem (by simp)
      intro n h4 h5
      simp [bsize, List.getD_eq_getElem?_getD, h5]
    rw [h2, h3]
    simp [dims]

/-! ## The quantum number of a block tuple -/

theorem cflux_val {M : Verif.QN.Name → Int} {u : List Verif.QN.Name} {is : IndexSet} (cdir : Int)
    (h : SectorsOK M u is) {b : Block} (hb : Valid (nb is) b) {q : Verif.QN.QN} (hq : IsQN M q)
    (hqu : ∀ v ∈ q, v.active = true → v.name ∈ u) :
    IsQN M (cflux cdir is b q) ∧ (∀ v ∈ cflux cdir is b q, v.active = true → v.name ∈ u) ∧
      ∀ n, (cflux cdir is b q).val n = norm (M n) (q.val n + cdir * fluxVal is b n) := by
  induction is generalizing b q with
  | nil => cases hb; exact ⟨hq, hqu, by intro n; simp [cflux, fluxVal, isQN_val_norm hq n]⟩
  | cons I is ih =>
    simp only [nb, List.map_cons] at hb
    cases hb with
    | cons h1 h2 =>
      rename_i x bs
      have hx : x < I.qns.length := h1
      have hget : I.qns.getD x (Verif.QN.QN.default, 0) = I.qns[x] := by
        rw [List.getD_eq_getElem?_getD, List.getElem?_eq_getElem hx]; rfl
      obtain ⟨hq1, hq2⟩ := h.2 I (by simp) I.qns[x] (List.getElem_mem hx)
      obtain ⟨hs1, hs2⟩ := Verif.QN.C06_scale_val hq1 I.dir
      obtain ⟨ht1, ht2⟩ := Verif.QN.C06_scale_val hs1 cdir
      obtain ⟨ha1, ha2, ha3⟩ := isQN_add_names hq ht1 h.1 hqu
        (isQN_scale_names hs1 cdir (isQN_scale_names hq1 I.dir hq2))
      simp only [cflux, hget]
      obtain ⟨g1, g3, g2⟩ := ih ⟨h.1, fun J hJ => h.2 J (by simp [hJ])⟩ h2 ha1 ha3
      refine ⟨g1, g3, fun n => ?_⟩
      have hm : ∀ m v w : Int, norm m (norm m v * w) = norm m (v * w) := by
        intro m v w
        unfold norm; split
        · rw [Int.mul_emod, Int.emod_emod_of_dvd _ (Int.dvd_refl _), ← Int.mul_emod]
        · rfl
      rw [g2 n, ha2 n, ht2 n, hs2 n, Verif.QN.norm_add_norm_left, Int.add_right_comm,
        Verif.QN.norm_add_norm_right, ← Verif.QN.norm_add_norm_right, hm, Verif.QN.norm_add_norm_right]
      simp only [fluxVal, List.zipWith_cons_cons, List.sum_cons, hget]
      ring_nf

/-! ## C27 -/

theorem qcombiner_run (fuel id : Nat) (tags : TagSet) (arg : Option Int) {inds : IndexSet} (hne : inds ≠ [])
    (hsec : ∀ I ∈ inds, 0 < I.nblock) (hf : (nb inds).prod < fuel) (hmax : ((nb inds).prod : Int) ≤ offMax) :
    let r := putAll [] ((allInds (nb inds)).map fun b =>
      (cflux (combDir arg inds) inds b Verif.QN.QN.default, bdim inds b))
    qcombiner fuel id tags arg inds = some (.ok
      ((⟨id, (r.1.map (·.2)).sum, combDir arg inds, if tags.plev < 0 then tags.setPrime 0 else tags, r.1⟩ : Index)
        :: inds.map Index.dag, r.2)) := by
  have hext : Range.extents (Range.init (nb inds)) = nb inds := Range.extents_init _
  obtain ⟨l, h1, h2, _, _, h5⟩ := C15_rangeIter 0 (Range.init (nb inds)) (by
      intro e
      have := congrArg Range.extents e
      rw [hext] at this
      cases inds with
      | nil => exact hne rfl
      | cons _ _ => simp [nb, Range.extents] at this)
    (by rw [hext]; intro x hx; obtain ⟨I, hI, rfl⟩ := List.mem_map.1 hx; exact hsec I hI)
    (by
      rw [hext]; intro i hi
      rw [Range.addr_init (valid_length hi)]
      have := rank_lt hi
      omega) fuel (by rw [hext]; exact hf)
  rw [hext] at h2
  have h2' : l.map (·.ind) = allInds (nb inds) := by rw [h2]; simp
  have hlen : l.length = (nb inds).prod := by
    have := congrArg List.length h2'
    simpa [allInds_length] using this
  have hoff : l.map (·.off) = (List.range' 0 l.length).map (fun (n : Nat) => (n : Int)) := by
    apply List.ext_getElem (by simp)
    intro k hk1 hk2
    have hk : k < l.length := by simpa using hk1
    have e : l[k].ind = unrank (nb inds) k := by
      have := List.getElem_of_eq h2' (i := k) (by simpa using hk)
      simpa [allInds] using this
    have hv : Valid (nb inds) (unrank (nb inds) k) := unrank_valid (by omega)
    have h6 := h5 l[k] (List.getElem_mem hk)
    rw [e] at h6
    rw [offset_zero_eq _ _ (by rw [valid_length hv, ← congrArg List.length hext]; simp [Range.extents]), Range.addr_init (valid_length hv),
      rank_unrank (by omega)] at h6
    simp only [List.getElem_map, List.getElem_range', Nat.zero_add, Nat.one_mul]
    exact (Res.ok.inj h6).symm
  intro r
  unfold qcombiner
  rw [if_neg hne]
  dsimp only
  rw [show inds.map (·.nblock) = nb inds from rfl, h1]
  dsimp only
  have hfold := combFold (combDir arg inds) inds l 0 [] [] (List.replicate (nb inds).prod ⟨0, 0, 0⟩)
    (fun s hs => mem_allInds.1 (h2' ▸ List.mem_map_of_mem hs)) rfl (by simp [hlen]) hoff
  rw [List.nil_append] at hfold
  have hmap : (l.map fun s => (cflux (combDir arg inds) inds s.ind Verif.QN.QN.default, bdim inds s.ind)) =
      (allInds (nb inds)).map fun b => (cflux (combDir arg inds) inds b Verif.QN.QN.default, bdim inds b) := by
    rw [← h2', List.map_map]; rfl
  rw [hmap] at hfold
  rw [hfold]
  simp [r]

theorem putAll_mem (qms l : List (Verif.QN.QN × Nat)) (p) (hp : p ∈ (putAll qms l).1) :
    (∃ p0 ∈ qms, p.1 = p0.1) ∨ ∃ qm ∈ l, p.1 = qm.1 := by
  induction l generalizing qms with
  | nil => exact Or.inl ⟨p, hp, rfl⟩
  | cons qm l ih =>
    rcases ih _ hp with ⟨p0, h0, e⟩ | ⟨qm', h1, e⟩
    · unfold putQ at h0
      cases hf : qms.findIdx? (fun p => p.1.eq qm.1) with
      | none =>
        rw [hf] at h0
        rcases List.mem_append.1 h0 with h0 | h0
        · exact Or.inl ⟨p0, h0, e⟩
        · rw [List.mem_singleton.1 h0] at e
          exact Or.inr ⟨qm, by simp, e⟩
      | some n =>
        rw [hf] at h0
        obtain ⟨k, hk⟩ := List.mem_iff_getElem?.1 h0
        dsimp only at hk
        rw [List.getElem?_modify] at hk
        cases hq : qms[k]? with
        | none => rw [hq] at hk; simp at hk
        | some p1 =>
          refine Or.inl ⟨p1, List.mem_of_getElem? hq, ?_⟩
          rw [hq] at hk
          by_cases hn : n = k
          · simp [hn] at hk; rw [e, ← hk]
          · simp [hn] at hk; rw [e, ← hk]
    · exact Or.inr ⟨qm', by simp [h1], e⟩

/-- What the combined index `c` and the store of the combiner are for the indices `inds`: the
structure that the functions which combine and uncombine rely on. -/
structure CombinerOK (M : Verif.QN.Name → Int) (u : List Verif.QN.Name) (inds : IndexSet) (c : Index)
    (store : List BlockRange) : Prop where
  len : store.length = (nb inds).prod
  sectors : SectorsOK M u [c]
  distinct : (c.qns.map (·.1)).Pairwise fun a b => ∃ n, a.val n ≠ b.val n
  dim : (dims [c]).prod = (dims inds).prod
  block : ∀ b, Valid (nb inds) b → ∃ br q m, store[rank (nb inds) b]? = some br ∧ c.qns[br.block]? = some (q, m) ∧
    (∀ n, q.val n = norm (M n) (c.dir * fluxVal inds b n)) ∧ br.extent = bdim inds b ∧ br.start + br.extent ≤ m
  cover : ∀ (n : Nat) (q : Verif.QN.QN) (m : Nat), c.qns[n]? = some (q, m) → ∀ v < m, ∃! b, Valid (nb inds) b ∧ ∃ br,
    store[rank (nb inds) b]? = some br ∧ br.block = n ∧ br.start ≤ v ∧ v < br.start + br.extent
  hit : ∀ n < c.qns.length, ∃ b br, Valid (nb inds) b ∧ store[rank (nb inds) b]? = some br ∧ br.block = n

theorem qcombiner_ok {M : Verif.QN.Name → Int} {u : List Verif.QN.Name} (fuel id : Nat) (tags : TagSet) (arg : Option Int)
    {inds : IndexSet} (hne : inds ≠ []) (hsec : ∀ I ∈ inds, 0 < I.nblock) (hok : SectorsOK M u inds)
    (hf : (nb inds).prod < fuel) (hmax : ((nb inds).prod : Int) ≤ offMax) :
    ∃ c store, qcombiner fuel id tags arg inds = some (.ok (c :: inds.map Index.dag, store)) ∧ c.id = id ∧
      c.dir = combDir arg inds ∧ c.dim = (c.qns.map (·.2)).sum ∧ CombinerOK M u inds c store := by
  have hrun := qcombiner_run fuel id tags arg hne hsec hf hmax
  refine ⟨_, _, hrun, rfl, rfl, rfl, ?_⟩
  set cdir := combDir arg inds
  set l := (allInds (nb inds)).map fun b => (cflux cdir inds b Verif.QN.QN.default, bdim inds b) with hl
  obtain ⟨i1, i2, i3, i4, i5, i6, i7⟩ := putAll_spec [] l
  have hlen := putAll_length [] l
  have hcf : ∀ b, Valid (nb inds) b → IsQN M (cflux cdir inds b Verif.QN.QN.default) ∧
      (∀ v ∈ cflux cdir inds b Verif.QN.QN.default, v.active = true → v.name ∈ u) ∧
      ∀ n, (cflux cdir inds b Verif.QN.QN.default).val n = norm (M n) (cdir * fluxVal inds b n) := by
    intro b hb
    obtain ⟨g1, g2, g3⟩ := cflux_val cdir hok hb (Verif.QN.isQN_default M)
      (by intro v hv hv2; have := (List.mem_replicate.1 hv).2; subst this; cases hv2)
    refine ⟨g1, g2, fun n => ?_⟩
    rw [g3 n, show (Verif.QN.QN.default).val n = 0 by rw [(Verif.QN.WF.default M).val]; rfl, Int.zero_add]
  have hmem : ∀ p ∈ (putAll [] l).1, ∃ b, Valid (nb inds) b ∧ p.1 = cflux cdir inds b Verif.QN.QN.default := by
    intro p hp
    rcases putAll_mem [] l p hp with ⟨_, h0, _⟩ | ⟨qm, h1, e⟩
    · simp at h0
    · rw [hl] at h1
      obtain ⟨b, hb, rfl⟩ := List.mem_map.1 h1
      exact ⟨b, mem_allInds.1 hb, e⟩
  have hq : ∀ p ∈ (putAll [] l).1, IsQN M p.1 ∧ ∀ v ∈ p.1, v.active = true → v.name ∈ u := by
    intro p hp
    obtain ⟨b, hb, e⟩ := hmem p hp
    rw [e]
    exact ⟨(hcf b hb).1, (hcf b hb).2.1⟩
  have hget : ∀ b, Valid (nb inds) b → l[rank (nb inds) b]? = some (cflux cdir inds b Verif.QN.QN.default, bdim inds b) := by
    intro b hb
    rw [hl, List.getElem?_map, allInds, List.getElem?_map, List.getElem?_range (rank_lt hb)]
    simp [unrank_rank hb]
  have hll : l.length = (nb inds).prod := by simp [hl, allInds_length]
  have hdist : ((putAll [] l).1.map (·.1)).Pairwise fun a b => ∃ n, a.val n ≠ b.val n := by
    have h3 := i3 (by simp)
    rw [List.pairwise_map] at h3 ⊢
    refine h3.imp_of_mem fun {p p'} hp hp' h => ?_
    by_contra hall
    push Not at hall
    rw [(Verif.QN.C07_eq_iff (hq p hp).1 (hq p' hp').1).2 hall] at h
    simp at h
  have hval : ∀ b, Valid (nb inds) b → ∀ br, (putAll [] l).2[rank (nb inds) b]? = some br → ∃ p, (putAll [] l).1[br.block]? = some p ∧
      ∀ n, p.1.val n = (cflux cdir inds b Verif.QN.QN.default).val n := by
    intro b hb br hbr
    obtain ⟨_, p, e2, e3⟩ := i1 _ _ _ hbr (hget b hb)
    refine ⟨p, e2, fun n => ?_⟩
    rcases e3 with e3 | e3
    · exact (Verif.QN.C07_eq_iff (hq p (List.mem_of_getElem? e2)).1 (hcf b hb).1).1 e3 n
    · rw [e3]
  refine ⟨by rw [hlen, hll], ⟨hok.1, ?_⟩, hdist, ?_, ?_, ?_, ?_⟩
  · intro I hI p hp
    obtain rfl : I = _ := List.mem_singleton.1 hI
    exact hq p hp
  · have : (l.map (·.2)).sum = (dims inds).prod := by
      rw [← sum_bdim, hl, List.map_map]; rfl
    simp only [dims, szs, List.map_cons, List.map_nil, List.prod_singleton] at *
    rw [i7, ← this]; simp
  · intro b hb
    have hk : rank (nb inds) b < (putAll [] l).2.length := by rw [hlen, hll]; exact rank_lt hb
    obtain ⟨e1, p, e2, e3⟩ := i1 _ _ _ (List.getElem?_eq_getElem hk) (hget b hb)
    refine ⟨_, p.1, p.2, List.getElem?_eq_getElem hk, e2, ?_, e1, ?_⟩
    · intro n
      have h4 : p.1.val n = (cflux cdir inds b Verif.QN.QN.default).val n := by
        rcases e3 with e3 | e3
        · exact (Verif.QN.C07_eq_iff (hq p (List.mem_of_getElem? e2)).1 (hcf b hb).1).1 e3 n
        · rw [e3]
      rw [h4, (hcf b hb).2.2 n]
    · have := (i6 _ (List.getElem_mem hk)).2
      unfold szOf at this
      rw [List.getD_eq_getElem?_getD, e2] at this
      exact this
  · intro n q m hn v hv
    obtain ⟨k, ⟨br, f1, f2, f3, f4⟩, huniq⟩ := i5 n v (by simp [szOf]) (by
      unfold szOf; rw [List.getD_eq_getElem?_getD]; dsimp only at hn; rw [hn]; exact hv)
    have hk : k < (nb inds).prod := by
      have := (List.getElem?_eq_some_iff.1 f1).1
      rwa [hlen, hll] at this
    refine ⟨unrank (nb inds) k, ⟨unrank_valid hk, br, by rw [rank_unrank hk]; exact f1, f2, f3, f4⟩, ?_⟩
    rintro b ⟨hb, br', g1, g2⟩
    rw [← huniq _ ⟨br', g1, g2⟩, unrank_rank hb]
  · intro n hn
    dsimp only at hn
    obtain ⟨b, hb, e⟩ := hmem _ (List.getElem_mem hn)
    have hk : rank (nb inds) b < (putAll [] l).2.length := by rw [hlen, hll]; exact rank_lt hb
    obtain ⟨p, e2, e3⟩ := hval b hb _ (List.getElem?_eq_getElem hk)
    refine ⟨b, _, hb, List.getElem?_eq_getElem hk, ?_⟩
    obtain ⟨hm, e4⟩ := List.getElem?_eq_some_iff.1 e2
    rw [List.pairwise_map, List.pairwise_iff_getElem] at hdist
    rcases Nat.lt_trichotomy (putAll [] l).2[rank (nb inds) b].block n with h | h | h
    · obtain ⟨nm, h1⟩ := hdist _ _ hm hn h
      exact absurd (by rw [e4, e, e3 nm]) h1
    · exact h
    · obtain ⟨nm, h1⟩ := hdist _ _ hn hm h
      exact absurd (by rw [e4, e, e3 nm]) h1

/-- **C27.** The index which `combiner(inds)` makes from any QN indices. Its dimension is the product of their
dimensions. Its sectors have different quantum numbers. Every choice `b` of one sector from each of
`inds` has its own range in one sector of the new index: the quantum number of that sector is the sum of
arrow times quantum number over `b` (times the arrow of the new index), and the range is as long as the
product of the sizes. The ranges of one sector do not overlap and fill it. -/
theorem C27_sectors {M : Verif.QN.Name → Int} {u : List Verif.QN.Name} (fuel id : Nat) (tags : TagSet) (arg : Option Int)
    {inds : IndexSet} (hne : inds ≠ []) (hsec : ∀ I ∈ inds, 0 < I.nblock) (hok : SectorsOK M u inds)
    (hf : (inds.map fun I => I.qns.length).prod < fuel) (hmax : (((inds.map fun I => I.qns.length).prod : Nat) : Int) ≤ offMax) :
    ∃ c store, qcombiner fuel id tags arg inds = some (.ok (c :: inds.map Index.dag, store)) ∧ c.id = id ∧
      c.dir = (arg.getD (if ∀ I ∈ inds, I.dir = -1 then -1 else 1)) ∧
      c.dim = (c.qns.map (·.2)).sum ∧ c.dim = (inds.map fun I => (I.qns.map (·.2)).sum).prod ∧
      ((c.qns.map (·.1)).Pairwise fun a b => ∃ n, a.val n ≠ b.val n) ∧
      (∀ b, List.Forall₂ (fun (x : Nat) (I : Index) => x < I.qns.length) b inds →
        ∃ br q m, store[rank (inds.map fun I => I.qns.length) b]? = some br ∧ c.qns[br.block]? = some (q, m) ∧
          (∀ n, q.val n = norm (M n) (c.dir * fluxVal inds b n)) ∧
          br.extent = (List.zipWith (fun (I : Index) x => (I.qns.map (·.2)).getD x 0) inds b).prod ∧
          br.start + br.extent ≤ m) ∧
      ∀ n q m, c.qns[n]? = some (q, m) → ∀ v < m, ∃! b,
        List.Forall₂ (fun (x : Nat) (I : Index) => x < I.qns.length) b inds ∧ ∃ br,
          store[rank (inds.map fun I => I.qns.length) b]? = some br ∧ br.block = n ∧ br.start ≤ v ∧
          v < br.start + br.extent := by
  obtain ⟨c, store, h1, h2, h3, h4, h5⟩ := qcombiner_ok fuel id tags arg hne hsec hok hf hmax
  have hv : ∀ b, List.Forall₂ (fun (x : Nat) (I : Index) => x < I.qns.length) b inds ↔ Valid (nb inds) b := by
    intro b
    unfold Valid nb
    rw [List.forall₂_map_right_iff]
    rfl
  refine ⟨c, store, h1, h2, ?_, h4, ?_, h5.distinct, ?_, ?_⟩
  · rw [h3]
    unfold combDir
    cases arg with
    | some d => rfl
    | none => simp
  · have := h5.dim
    simp only [dims, szs, List.map_cons, List.map_nil, List.prod_singleton] at this
    rw [h4, this]
  · intro b hb
    exact h5.block b ((hv b).1 hb)
  · intro n q m hn v hvm
    obtain ⟨b, ⟨e1, e2⟩, e3⟩ := h5.cover n q m hn v hvm
    exact ⟨b, ⟨(hv b).2 e1, e2⟩, fun b' hb' => e3 b' ⟨(hv b').1 hb'.1, hb'.2⟩⟩

/-! ## An example -/

/-- Two indices with the sectors `Sz=1` of size 2 and `Sz=-1` of size 1, arrows out and in: three sectors, `Sz=0` of
size 5 made of two ranges. -/
example : ∃ x, qcombiner 100 9 ⟨List.replicate 4 Verif.TagSet.Tag.empty, -1, 0⟩ none [exI 1 1, exI 2 (-1)] = some (.ok x) ∧
    x.1.map (fun I => I.qns.map fun p => (p.1.val (Verif.TagSet.Tag.ofBytes [83, 122]), p.2)) =
      [[(0, 5), (-2, 2), (2, 2)], [(1, 2), (-1, 1)], [(1, 2), (-1, 1)]] ∧
    x.1.map (·.dir) = [1, -1, 1] ∧ x.2 = [⟨0, 0, 4⟩, ⟨1, 0, 2⟩, ⟨2, 0, 2⟩, ⟨0, 4, 1⟩] := by
  refine ⟨_, qcombiner_run 100 9 _ none (by simp) (by decide) (by decide) (by decide), ?_, ?_, ?_⟩ <;> decide +kernel

/-- The hypotheses of `C27_sectors` hold for them. -/
example : ∃ c store, qcombiner 100 9 ⟨List.replicate 4 Verif.TagSet.Tag.empty, -1, 0⟩ none [exI 1 1, exI 2 (-1)] =
    some (.ok (c :: [exI 1 1, exI 2 (-1)].map Index.dag, store)) ∧ c.dim = 9 ∧ c.dir = 1 := by
  obtain ⟨c, store, h1, _, h3, _, h5, _⟩ := C27_sectors 100 9 ⟨List.replicate 4 Verif.TagSet.Tag.empty, -1, 0⟩ none
    (inds := [exI 1 1, exI 2 (-1)]) (by simp) (by decide) exSectors (by decide) (by decide)
  exact ⟨c, store, h1, by rw [h5]; decide, by rw [h3]; decide⟩

end Verif.QDense
