import Verif.Net.Add

/-!
# Combining indices

Sources: `/repo/itensor/itdata/combiner.cc`, `combiner` of `/repo/itensor/itensor.cc`.

As in `Net/Diag.lean`, elements are from a commutative ring, and there are no quantum numbers (combiners with quantum
numbers are in `QDense/Combiner.lean`).
-/

namespace Verif.Net

open Verif.Tensor Verif.Tensor.Range Verif.Tensor.Permutation Verif.Index Verif.Index.IndexSet Finset

variable {K : Type*} [CommRing K] [DecidableEq K]

/-- `combiner(inds,args)` without quantum numbers (itensor.cc:1474-1488): the indices of the combiner, the combined index first. `id` is the
random identity of the new index and `tags` are the tags asked for (`Index(long,TagSet)`, index.cc:65-73). -/
def combinerInds (id : Nat) (tags : Verif.TagSet.TagSet) (inds : IndexSet) : Res IndexSet :=
  if inds.isEmpty then .throw
  else .ok ({ id := id, dim := (inds.map (·.dim)).prod, dir := 1, tags := if tags.plev < 0 then tags.setPrime 0 else tags, qns := [] } :: inds)

/-- The loop which looks whether `Cis[2]`, `Cis[3]`, ... follow `Cis[1]` (combiner.cc:98-104), from positions `c` and `j`: the arguments are the rest
of `Cis` and the rest of `dis`. When `dis` ends first, `c != Cis.order()`. -/
def contigLoop : IndexSet → IndexSet → Bool
  | [], _ => true
  | _ :: _, [] => false
  | x :: cs, y :: is => if !y.eq x then false else contigLoop cs is

/-- Combined indices go to the front (combiner.cc:127-139); `none` is the destination -1. -/
def frontLoop (dis : IndexSet) : IndexSet → Nat → List (Option Nat) → Res (List (Option Nat) × Nat)
  | [], ni, P => .ok (P, ni)
  | x :: cs, ni, P =>
    match indexPosition dis x with
    | none => .throw
    | some j => frontLoop dis cs (ni + 1) (P.set j (some ni))

/-- The other indices go to the back (combiner.cc:143-149): the indices put into `newind` and the complete permutation. -/
def backLoop : IndexSet → List (Option Nat) → Nat → IndexSet × Permutation
  | i :: is, none :: P, ni => let r := backLoop is P (ni + 1); (i :: r.1, ni :: r.2)
  | _ :: is, some d :: P, ni => let r := backLoop is P ni; (r.1, d :: r.2)
  | _, _, _ => ([], [])

/-- `permuteStore` (combiner.cc:44-54) with `assignFromRef` (ten.h:690-695). `fresh` is the undefined contents of new memory. -/
def permuteStore (fuel : Nat) (fresh : Int → K) (t : DS K) (P : Permutation) : Run (Nat × (Int → K)) :=
  if t.size < (t.is.map (·.dim)).prod then some .ub
  else match permuteRange (init (t.is.map (·.dim))) P with
    | .ok V => Run.bind (runTransform fuel (fun b _ => b) V (init (Range.extents V)) t.mem fresh) fun m =>
        some (.ok ((Range.extents V).prod, m))
    | .throw => some .throw
    | .ub => some .ub

/-- `combine(d,dis,Cis,Nis,m)` (combiner.cc:56-155). A combiner has at least two indices (`combiner` reports an error
otherwise); `Cis[0]` or `Cis[1]` of a shorter set is outside the set. -/
def combine (fuel : Nat) (fresh : Int → K) (t : DS K) (Cis : IndexSet) : Run (DS K) :=
  match Cis with
  | [] => some .ub
  | cind :: cs =>
    match indexPosition t.is cind with
    | some jc => some (.ok { t with is := t.is.take jc ++ cs ++ t.is.drop (jc + 1) })
    | none =>
      match cs with
      | [] => some .ub
      | c1 :: cs' =>
        match indexPosition t.is c1 with
        | none => some .throw
        | some J1 =>
          if contigLoop cs' (t.is.drop (J1 + 1)) then
            some (.ok { t with is := t.is.take J1 ++ cind :: t.is.drop (J1 + cs.length) })
          else match frontLoop t.is cs 0 (List.replicate t.is.length none) with
            | .throw => some .throw
            | .ub => some .ub
            | .ok (P, ni) =>
              let r := backLoop t.is P ni
              -- `newind` has room for this number of indices
              if r.1.length + cs.length ≠ t.is.length then some .ub
              else Run.bind (permuteStore fuel fresh t r.2) fun s => some (.ok ⟨cind :: r.1, s.1, s.2⟩)

/-- `T*C` and `C*T` for a combiner `C` (combiner.cc:157-181 and itensor.cc:935-978): both call `combine`. Without indices, `T` is a number,
and there is no `Mult` for a combiner, so that `doTask` reports an error. -/
def mulCombiner (fuel : Nat) (fresh : Int → K) (t : DS K) (Cis : IndexSet) : Run (DS K) :=
  if t.is.length = 0 then some .throw else combine fuel fresh t Cis

/-! ## Specification -/

/-- What a combiner means: one when the value of the combined index is the position, in column-major order, of the values of the others. -/
def combSem (K : Type*) [CommRing K] (c : Index) (cs : IndexSet) : Ten Key K :=
  ⟨c.key :: keys cs, fun σ => if σ c.key = rank (cs.map (·.dim)) (cs.map fun i => σ i.key) then 1 else 0⟩

/-- Give the combined index the value which belongs to the values of the others. -/
def combVal (c : Index) (cs : IndexSet) (σ : Key → Nat) : Key → Nat :=
  Function.update σ c.key (rank (cs.map (·.dim)) (cs.map fun i => σ i.key))

/-- A combiner as the library builds it: distinct non-empty indices with dimensions as in `ext`, and the dimension of the combined index is
the product of the others. -/
structure CombOK (ext : Key → Nat) (c : Index) (cs : IndexSet) : Prop where
  is : IsOK ext (c :: cs)
  ne : cs ≠ []
  dim : c.dim = (cs.map (·.dim)).prod

section lists

theorem indexPosition_some {is : IndexSet} {i : Index} {j : Nat} (h : indexPosition is i = some j) :
    ∃ x, is = is.take j ++ x :: is.drop (j + 1) ∧ x.key = i.key ∧ j < is.length := by
  unfold indexPosition at h
  rw [List.findIdx?_eq_some_iff_getElem] at h
  obtain ⟨hj, h1, _⟩ := h
  exact ⟨is[j], by rw [List.getElem_cons_drop, List.take_append_drop], Index.eq_iff.1 h1, hj⟩

theorem indexPosition_none {is : IndexSet} {i : Index} : indexPosition is i = none ↔ i.key ∉ keys is := by
  unfold indexPosition
  rw [List.findIdx?_eq_none_iff]
  simp only [keys, List.mem_map, not_exists, not_and, Bool.not_eq_true, ← Index.eq_iff]

theorem indexPosition_mem {is : IndexSet} {i : Index} (h : i.key ∈ keys is) : ∃ j, indexPosition is i = some j := by
  rcases hh : indexPosition is i with _ | j
  · exact absurd h (indexPosition_none.1 hh)
  · exact ⟨j, rfl⟩

theorem contigLoop_true : ∀ {cs is : IndexSet}, contigLoop cs is = true → ∃ m r, is = m ++ r ∧ keys m = keys cs
  | [], is, _ => ⟨[], is, rfl, rfl⟩
  | _ :: _, [], h => by simp [contigLoop] at h
  | x :: cs, y :: is, h => by
    simp only [contigLoop] at h
    by_cases he : y.eq x = true
    · simp only [he, Bool.not_true, Bool.false_eq_true, if_false] at h
      obtain ⟨m, r, e, hk⟩ := contigLoop_true h
      refine ⟨y :: m, r, by rw [e]; rfl, ?_⟩
      simp only [keys, List.map_cons, Index.eq_iff.1 he]
      rw [show m.map Index.key = keys m from rfl, hk]; rfl
    · simp [he] at h

theorem frontLoop_ok {dis : IndexSet} (hnd : (keys dis).Nodup) : ∀ (cs : IndexSet) (ni : Nat) (P : List (Option Nat)),
    (keys cs).Nodup → (∀ k ∈ keys cs, k ∈ keys dis) → P.length = dis.length →
    ∃ Q, frontLoop dis cs ni P = .ok (Q, ni + cs.length) ∧ Q.length = dis.length ∧
      ∀ (j : Nat) (hj : j < dis.length), Q[j]? = if dis[j].key ∈ keys cs then some (some (ni + (keys cs).idxOf dis[j].key)) else P[j]? := by
  intro cs
  induction cs with
  | nil => intro ni P _ _ hl; exact ⟨P, rfl, hl, fun j hj => by simp [keys]⟩
  | cons x cs ih =>
    intro ni P hn hm hl
    obtain ⟨p, hp⟩ := indexPosition_mem (hm x.key (by simp [keys]))
    have hx : x.key ∉ keys cs := by
      have := (List.nodup_cons.1 hn).1; exact this
    obtain ⟨Q, h1, h2, h3⟩ := ih (ni + 1) (P.set p (some ni)) (List.nodup_cons.1 hn).2
      (fun k hk => hm k (List.mem_cons_of_mem _ hk)) (by simpa using hl)
    refine ⟨Q, ?_, h2, fun j hj => ?_⟩
    · simp only [frontLoop, hp]
      rw [h1, List.length_cons]
      congr 2; omega
    · rw [h3 j hj]
      unfold indexPosition at hp
      rw [List.findIdx?_eq_some_iff_getElem] at hp
      obtain ⟨hpl, hpe, _⟩ := hp
      have hpe : dis[p].key = x.key := Index.eq_iff.1 hpe
      have hkk : keys (x :: cs) = x.key :: keys cs := rfl
      by_cases hjp : j = p
      · subst hjp
        rw [if_neg (by rw [hpe]; exact hx), if_pos (by rw [hpe]; simp [hkk]), List.getElem?_set_self (by omega), hkk, hpe,
          List.idxOf_cons_self]
        rfl
      · have hne : dis[j].key ≠ x.key := by
          intro e
          apply hjp
          have : (keys dis)[j]'(by simpa [keys] using hj) = (keys dis)[p]'(by simpa [keys] using hpl) := by
            simp only [keys, List.getElem_map]; rw [e, hpe]
          exact (List.Nodup.getElem_inj_iff hnd).1 this
        rw [hkk, List.getElem?_set_ne (by omega)]
        by_cases hc : dis[j].key ∈ keys cs
        · rw [if_pos hc, if_pos (List.mem_cons_of_mem _ hc), List.idxOf_cons_ne _ (Ne.symm hne)]
          congr 2; omega
        · rw [if_neg hc, if_neg]
          simp [hne, hc]

theorem backLoop_ok (S : Key → Prop) [DecidablePred S] (f : Key → Nat) : ∀ (dis : IndexSet) (ni : Nat), (keys dis).Nodup →
    backLoop dis (dis.map fun i => if S i.key then some (f i.key) else none) ni =
      (dis.filter (fun i => ¬ S i.key), dis.map fun i => if S i.key then f i.key else
        ni + (keys (dis.filter fun i => ¬ S i.key)).idxOf i.key) := by
  intro dis
  induction dis with
  | nil => intro ni _; rfl
  | cons x dis ih =>
    intro ni hn
    have hx : x.key ∉ keys dis := (List.nodup_cons.1 hn).1
    have hn' := (List.nodup_cons.1 hn).2
    by_cases hS : S x.key
    · simp only [List.map_cons, hS, if_true, backLoop]
      rw [ih ni hn']
      simp [hS]
    · simp only [List.map_cons, hS, if_false, backLoop]
      rw [ih (ni + 1) hn']
      have hf : (x :: dis).filter (fun i => decide (¬ S i.key)) = x :: dis.filter (fun i => decide (¬ S i.key)) := by simp [hS]
      rw [hf]
      have hk : keys (x :: dis.filter fun i => decide (¬ S i.key)) = x.key :: keys (dis.filter fun i => decide (¬ S i.key)) := rfl
      rw [hk]
      refine Prod.ext rfl ?_
      simp only
      refine List.cons_eq_cons.2 ⟨by simp [List.idxOf_cons_self], List.map_congr_left fun i hi => ?_⟩
      have hne : i.key ≠ x.key := fun e => hx (e ▸ List.mem_map_of_mem hi)
      by_cases hi' : S i.key
      · simp [hi']
      · simp only [hi', if_false]
        rw [List.idxOf_cons_ne _ (Ne.symm hne)]
        omega

/-- The permutation with the positions of the labels in another order. -/
theorem labelPerm_idx {X : Type*} [BEq X] [LawfulBEq X] {xs ys : List X} (h : xs.Perm ys) (hnd : xs.Nodup) :
    LabelPerm (xs.map fun x => ys.idxOf x) xs ys := by
  have hy : ys.Nodup := h.nodup_iff.1 hnd
  refine ⟨?_, by simp, h.length_eq, ?_⟩
  · unfold IsPerm
    rw [List.length_map]
    have : (ys.map fun x => ys.idxOf x) = List.range ys.length := by
      apply List.ext_getElem (by simp)
      intro n h1 h2
      rw [List.length_map] at h1
      simp [hy.idxOf_getElem n h1]
    rw [h.length_eq, ← this]
    exact h.map _
  · intro i d hd
    rw [List.getElem?_map] at hd
    rcases hx : xs[i]? with _ | x
    · rw [hx] at hd; simp at hd
    · rw [hx] at hd
      simp only [Option.map_some, Option.some.injEq] at hd
      have hm : x ∈ ys := h.mem_iff.1 (List.mem_of_getElem? hx)
      rw [← hd, List.getElem?_eq_getElem (List.idxOf_lt_length_iff.2 hm), List.getElem_idxOf]

end lists

/-! ## Elements -/

section elements

theorem rank_group (a m b ia im ib : List Nat) (ha : ia.length = a.length) (hm : im.length = m.length) :
    rank (a ++ m.prod :: b) (ia ++ rank m im :: ib) = rank (a ++ m ++ b) (ia ++ im ++ ib) := by
  rw [List.append_assoc, List.append_assoc, rank_append _ _ _ _ ha, rank_append _ _ _ _ ha, rank_append _ _ _ _ hm]
  rfl

/-- Values of the labels `cs` which have rank `v`. -/
def putRank {X : Type*} [DecidableEq X] (ext : X → Nat) : (X → Nat) → List X → Nat → X → Nat
  | ρ, [], _ => ρ
  | ρ, x :: cs, v => putRank ext (Function.update ρ x (v % ext x)) cs (v / ext x)

theorem putRank_other {X : Type*} [DecidableEq X] (ext : X → Nat) : ∀ (cs : List X) (ρ : X → Nat) (v : Nat) (y : X), y ∉ cs →
    putRank ext ρ cs v y = ρ y := by
  intro cs
  induction cs with
  | nil => intro ρ v y _; rfl
  | cons x cs ih =>
    intro ρ v y hy
    simp only [List.mem_cons, not_or] at hy
    simp only [putRank]
    rw [ih _ _ _ hy.2, Function.update_of_ne hy.1]

theorem putRank_rank {X : Type*} [DecidableEq X] (ext : X → Nat) : ∀ (cs : List X) (ρ : X → Nat) (v : Nat), cs.Nodup → v < (cs.map ext).prod →
    rank (cs.map ext) (cs.map (putRank ext ρ cs v)) = v ∧ ∀ x ∈ cs, putRank ext ρ cs v x < ext x := by
  intro cs
  induction cs with
  | nil => intro ρ v _ hv; simp at hv; simp [rank, hv]
  | cons x cs ih =>
    intro ρ v hn hv
    simp only [List.map_cons, List.prod_cons] at hv
    have hx : 0 < ext x := Nat.pos_of_ne_zero (by intro h; simp [h] at hv)
    obtain ⟨h1, h2⟩ := ih (Function.update ρ x (v % ext x)) (v / ext x) (List.nodup_cons.1 hn).2 (Nat.div_lt_of_lt_mul hv)
    have e : putRank ext (Function.update ρ x (v % ext x)) cs (v / ext x) x = v % ext x := by
      rw [putRank_other ext _ _ _ _ (List.nodup_cons.1 hn).1, Function.update_self]
    simp only [putRank, List.map_cons, rank]
    rw [h1, e]
    refine ⟨Nat.mod_add_div _ _, fun y hy => ?_⟩
    rcases List.mem_cons.1 hy with rfl | hy
    · rw [e]; exact Nat.mod_lt _ hx
    · exact h2 y hy

omit [DecidableEq K] in
/-- A sum over all values of labels where only the values of one rank contribute. -/
theorem sumOver_rank {X : Type*} [DecidableEq X] (ext : X → Nat) (F : (X → Nat) → K) : ∀ (cs : List X) (ρ : X → Nat) (v : Nat), cs.Nodup →
    v < (cs.map ext).prod →
    sumOver ext cs (fun σ => F σ * if v = rank (cs.map ext) (cs.map σ) then 1 else 0) ρ = F (putRank ext ρ cs v) := by
  intro cs
  induction cs generalizing F with
  | nil => intro ρ v _ hv; simp at hv; simp [sumOver, rank, hv, putRank]
  | cons x cs ih =>
    intro ρ v hn hv
    simp only [List.map_cons, List.prod_cons] at hv
    have hx : 0 < ext x := Nat.pos_of_ne_zero (by intro h; simp [h] at hv)
    have hxc := (List.nodup_cons.1 hn).1
    simp only [sumOver, List.map_cons, rank]
    rw [sum_eq_single_of_mem (v % ext x) (mem_range.2 (Nat.mod_lt _ hx))]
    · rw [putRank, ← ih F _ (v / ext x) (List.nodup_cons.1 hn).2 (Nat.div_lt_of_lt_mul hv)]
      refine Net.sumOver_congr ext cs _ fun σ hσ => ?_
      have := hσ x hxc
      rw [Function.update_self] at this
      rw [this]
      congr 1
      have hiff : v = v % ext x + ext x * rank (cs.map ext) (cs.map σ) ↔ v / ext x = rank (cs.map ext) (cs.map σ) := by
        constructor
        · intro h
          have := Nat.mod_add_div v (ext x)
          exact Nat.eq_of_mul_eq_mul_left hx (by omega)
        · intro h; rw [← h, Nat.mod_add_div]
      simp only [hiff]
    · intro i hi hne
      have hz : ∀ σ : X → Nat, (∀ y, y ∉ cs → σ y = Function.update ρ x i y) →
          (F σ * if v = σ x + ext x * rank (cs.map ext) (cs.map σ) then 1 else 0) = (fun _ => (0 : K)) σ := by
        intro σ hσ
        have := hσ x hxc
        rw [Function.update_self] at this
        rw [this, if_neg, mul_zero]
        intro h
        apply hne
        rw [h, Nat.add_mul_mod_self_left, Nat.mod_eq_of_lt (mem_range.1 hi)]
      rw [Net.sumOver_congr ext cs _ hz, sumOver_zero]

theorem dims_ext {ext : Key → Nat} {t : IndexSet} (ht : ∀ i ∈ t, i.dim = ext i.key) : t.map (·.dim) = (keys t).map ext := by
  rw [keys, List.map_map]
  exact List.map_congr_left fun i hi => ht i hi

theorem vals_keys (t : IndexSet) (σ : Key → Nat) : (t.map fun i => σ i.key) = (keys t).map σ := by
  rw [keys, List.map_map]; rfl

theorem dims_keys {ext : Key → Nat} {a b : IndexSet} (ha : ∀ i ∈ a, i.dim = ext i.key) (hb : ∀ i ∈ b, i.dim = ext i.key)
    (h : keys a = keys b) : a.map (·.dim) = b.map (·.dim) := by rw [dims_ext ha, dims_ext hb, h]

end elements

/-- The indices of a tensor with neighbouring indices `m` replaced by one index `c` whose dimension is their product: same storage, same elements. -/
theorem group_elt {ext : Key → Nat} {c : Index} {cs : IndexSet} (hC : CombOK ext c cs) {a m b : IndexSet} (hk : keys m = keys cs)
    (hm : ∀ i ∈ m, i.dim = ext i.key) (hc : c.key ∉ keys a ∧ c.key ∉ keys b) (σ : Key → Nat) :
    rank ((a ++ c :: b).map (·.dim)) ((a ++ c :: b).map fun i => combVal c cs σ i.key) =
      rank ((a ++ m ++ b).map (·.dim)) ((a ++ m ++ b).map fun i => σ i.key) := by
  have hcs : ∀ i ∈ cs, i.dim = ext i.key := fun i hi => hC.is.dims i (List.mem_cons_of_mem _ hi)
  have e1 : ∀ l : IndexSet, c.key ∉ keys l → (l.map fun i => combVal c cs σ i.key) = l.map fun i => σ i.key := by
    intro l hl
    refine List.map_congr_left fun i hi => ?_
    unfold combVal
    rw [Function.update_of_ne fun e => hl (by rw [← e]; exact List.mem_map_of_mem hi)]
  have e2 : combVal c cs σ c.key = rank (m.map (·.dim)) (m.map fun i => σ i.key) := by
    unfold combVal
    rw [Function.update_self, vals_keys, vals_keys, hk, dims_keys hm hcs hk]
  have e3 : c.dim = (m.map (·.dim)).prod := by rw [hC.dim, dims_keys hm hcs hk]
  simp only [List.map_append, List.map_cons]
  rw [e1 a hc.1, e1 b hc.2, e2, e3]
  exact rank_group _ _ _ _ _ _ (by simp) (by simp)


/-- A tensor which has the combined index. -/
theorem uncombine_ok {ext : Key → Nat} {c : Index} {cs : IndexSet} (hC : CombOK ext c cs) {t : DS K} (ht : t.OK ext)
    (hc : c.key ∈ keys t.is) (hcs : ∀ k ∈ keys cs, k ∉ keys t.is) (fuel : Nat) (fresh : Int → K) :
    ∃ N, combine fuel fresh t (c :: cs) = some (.ok N) ∧ N.OK ext ∧
      (∀ k, k ∈ keys N.is ↔ (k ∈ keys t.is ∧ k ≠ c.key) ∨ k ∈ keys cs) ∧
      ∀ σ : Key → Nat, N.sem.val σ = t.sem.val (combVal c cs σ) := by
  obtain ⟨j, hj⟩ := indexPosition_mem hc
  obtain ⟨x, hx, hxk, _⟩ := indexPosition_some hj
  simp only [combine, hj]
  set a := t.is.take j
  set b := t.is.drop (j + 1)
  have hxm : x ∈ t.is := by rw [hx]; simp
  have hxd : x.dim = c.dim := by
    rw [ht.is.dims x hxm, hxk, hC.is.dims c List.mem_cons_self]
  have hnd := ht.is.nodup
  have hkeys : keys t.is = keys a ++ x.key :: keys b := by rw [hx]; simp [keys]
  rw [hkeys] at hnd
  have hna : c.key ∉ keys a := by
    intro h
    exact (List.nodup_append.1 hnd).2.2 _ h _ List.mem_cons_self hxk.symm
  have hnb : c.key ∉ keys b := by
    intro h
    exact (List.nodup_cons.1 (List.nodup_append.1 hnd).2.1).1 (by rw [hxk]; exact h)
  have hmem : ∀ i ∈ a ++ cs ++ b, i ∈ t.is ∨ i ∈ cs := by
    intro i hi
    simp only [List.mem_append] at hi
    rcases hi with (h | h) | h
    · exact Or.inl (List.mem_of_mem_take h)
    · exact Or.inr h
    · exact Or.inl (List.mem_of_mem_drop h)
  have hcd : ∀ i ∈ cs, i.dim = ext i.key := fun i hi => hC.is.dims i (List.mem_cons_of_mem _ hi)
  have hdt : t.is.map (·.dim) = (a ++ c :: b).map (·.dim) := by
    conv_lhs => rw [hx]
    simp [hxd]
  have hvt : ∀ τ : Key → Nat, (t.is.map fun i => τ i.key) = (a ++ c :: b).map fun i => τ i.key := by
    intro τ
    conv_lhs => rw [hx]
    simp [hxk]
  refine ⟨_, rfl, ⟨⟨?_, ?_, ?_, ?_⟩, ?_⟩, ?_, fun σ => ?_⟩
  · have hka : keys (a ++ cs ++ b) = keys a ++ keys cs ++ keys b := by simp [keys]
    rw [hka]
    have h1 : (keys cs).Nodup := (List.nodup_cons.1 hC.is.nodup).2
    have h2 : ∀ k ∈ keys cs, k ∉ keys a ∧ k ∉ keys b := fun k hk => by
      have := hcs k hk
      rw [hkeys] at this
      simp only [List.mem_append, List.mem_cons, not_or] at this
      exact ⟨this.1, this.2.2⟩
    have h3 := List.nodup_append.1 hnd
    refine List.nodup_append.2 ⟨List.nodup_append.2 ⟨h3.1, h1, ?_⟩, (List.nodup_cons.1 h3.2.1).2, ?_⟩
    · rintro k hk l hl rfl; exact (h2 _ hl).1 hk
    · rintro k hk l hl rfl
      rcases List.mem_append.1 hk with hk | hk
      · exact h3.2.2 _ hk _ (List.mem_cons_of_mem _ hl) rfl
      · exact (h2 _ hk).2 hl
  · intro i hi
    rcases hmem i hi with h | h
    · exact ht.is.dims i h
    · exact hcd i h
  · intro i hi
    rcases hmem i hi with h | h
    · exact ht.is.pos i h
    · exact hC.is.pos i (List.mem_cons_of_mem _ h)
  · intro i hi
    rcases hmem i hi with h | h
    · exact ht.is.noqn i h
    · exact hC.is.noqn i (List.mem_cons_of_mem _ h)
  · change t.size = ((a ++ cs ++ b).map (·.dim)).prod
    rw [ht.size, hdt]
    simp only [List.map_append, List.map_cons, List.prod_append, List.prod_cons, hC.dim]
    ring
  · intro k
    change k ∈ keys (a ++ cs ++ b) ↔ _
    rw [hkeys]
    have hka : keys (a ++ cs ++ b) = keys a ++ keys cs ++ keys b := by simp [keys]
    rw [hka, hxk]
    simp only [List.mem_append, List.mem_cons]
    constructor
    · rintro ((h | h) | h)
      · exact Or.inl ⟨Or.inl h, fun e => hna (e ▸ h)⟩
      · exact Or.inr h
      · exact Or.inl ⟨Or.inr (Or.inr h), fun e => hnb (e ▸ h)⟩
    · rintro (⟨h | h | h, hne⟩ | h)
      · exact Or.inl (Or.inl h)
      · exact absurd h hne
      · exact Or.inr h
      · exact Or.inl (Or.inr h)
  · simp only [DS.sem]
    rw [hdt, hvt, group_elt hC rfl hcd ⟨hna, hnb⟩]

/-- A tensor which has all of the indices to be combined. -/
theorem combine_ok {ext : Key → Nat} {c : Index} {cs : IndexSet} (hC : CombOK ext c cs) {t : DS K} (ht : t.OK ext)
    (hc : c.key ∉ keys t.is) (hcs : ∀ k ∈ keys cs, k ∈ keys t.is) (fuel : Nat) (fresh : Int → K)
    (hmax : (((t.is.map (·.dim)).prod : Nat) : Int) ≤ offMax) (hf : (t.is.map (·.dim)).prod < fuel) :
    ∃ N, combine fuel fresh t (c :: cs) = some (.ok N) ∧ N.OK ext ∧
      (∀ k, k ∈ keys N.is ↔ (k ∈ keys t.is ∧ k ∉ keys cs) ∨ k = c.key) ∧
      ∀ σ : Key → Nat, (∀ i ∈ t.is, σ i.key < i.dim) → N.sem.val (combVal c cs σ) = t.sem.val σ := by
  have hcd : ∀ i ∈ cs, i.dim = ext i.key := fun i hi => hC.is.dims i (List.mem_cons_of_mem _ hi)
  have hnd := ht.is.nodup
  have hcn : (keys cs).Nodup := (List.nodup_cons.1 hC.is.nodup).2
  have hcc : c.key ∉ keys cs := (List.nodup_cons.1 hC.is.nodup).1
  simp only [combine, indexPosition_none.2 hc]
  rcases cs with _ | ⟨c1, cs'⟩
  · exact absurd rfl hC.ne
  obtain ⟨J1, hJ⟩ := indexPosition_mem (hcs c1.key (by simp [keys]))
  simp only [hJ]
  -- the storage is `n` and a new set of indices `is'` replaces `is`
  have fin : ∀ (a m b : IndexSet) (n : Nat) (mem : Int → K), keys m = keys (c1 :: cs') → (∀ i ∈ a ++ m ++ b, i ∈ t.is ∨ i ∈ c1 :: cs') →
      (keys (a ++ m ++ b)).Perm (keys t.is) → n = t.size →
      (∀ σ : Key → Nat, (∀ i ∈ t.is, σ i.key < i.dim) →
        mem (rank ((a ++ m ++ b).map (·.dim)) ((a ++ m ++ b).map fun i => σ i.key) : Nat) = t.sem.val σ) →
      DS.OK ext ⟨a ++ c :: b, n, mem⟩ ∧ (∀ k, k ∈ keys (a ++ c :: b) ↔ (k ∈ keys t.is ∧ k ∉ keys (c1 :: cs')) ∨ k = c.key) ∧
      ∀ σ : Key → Nat, (∀ i ∈ t.is, σ i.key < i.dim) → (DS.sem ⟨a ++ c :: b, n, mem⟩).val (combVal c (c1 :: cs') σ) = t.sem.val σ := by
    intro a m b n mem hm hsub hp hn hval
    have hmd : ∀ i ∈ a ++ m ++ b, i.dim = ext i.key ∧ 0 < i.dim ∧ i.qns = [] := by
      intro i hi
      rcases hsub i hi with h | h
      · exact ⟨ht.is.dims i h, ht.is.pos i h, ht.is.noqn i h⟩
      · have h := List.mem_cons_of_mem c h
        exact ⟨hC.is.dims i h, hC.is.pos i h, hC.is.noqn i h⟩
    have hks : ∀ a m b : IndexSet, keys (a ++ m ++ b) = keys a ++ keys m ++ keys b := by intro a m b; simp [keys]
    have hkc : keys (a ++ c :: b) = keys a ++ c.key :: keys b := by simp [keys]
    have hnd' : (keys a ++ keys (c1 :: cs') ++ keys b).Nodup := by rw [← hm, ← hks]; exact hp.nodup_iff.2 hnd
    have hck : c.key ∉ keys a ++ keys (c1 :: cs') ++ keys b := by rw [← hm, ← hks, hp.mem_iff]; exact hc
    simp only [List.mem_append, not_or] at hck
    have hdm : ∀ i ∈ m, i.dim = ext i.key := fun i hi => (hmd i (by simp [hi])).1
    have h1 := List.nodup_append.1 hnd'
    have h2 := List.nodup_append.1 h1.1
    have hall : ∀ i ∈ a ++ c :: b, i = c ∨ i ∈ a ++ m ++ b := by
      intro i hi
      simp only [List.mem_append, List.mem_cons] at hi ⊢
      tauto
    refine ⟨⟨⟨?_, ?_, ?_, ?_⟩, ?_⟩, ?_, ?_⟩
    · change (keys (a ++ c :: b)).Nodup
      rw [hkc]
      refine List.nodup_append.2 ⟨h2.1, List.nodup_cons.2 ⟨hck.2, h1.2.1⟩, ?_⟩
      rintro k hk l hl rfl
      rcases List.mem_cons.1 hl with rfl | hl
      · exact hck.1.1 hk
      · exact h1.2.2 _ (List.mem_append_left _ hk) _ hl rfl
    · intro i hi
      rcases hall i hi with rfl | h
      · exact hC.is.dims i List.mem_cons_self
      · exact (hmd i h).1
    · intro i hi
      rcases hall i hi with rfl | h
      · exact hC.is.pos i List.mem_cons_self
      · exact (hmd i h).2.1
    · intro i hi
      rcases hall i hi with rfl | h
      · exact hC.is.noqn i List.mem_cons_self
      · exact (hmd i h).2.2
    · change n = ((a ++ c :: b).map (·.dim)).prod
      rw [hn, ht.size, dims_ext ht.is.dims, ← (hp.map ext).prod_eq, ← dims_ext fun i hi => (hmd i hi).1]
      simp only [List.map_append, List.map_cons, List.prod_append, List.prod_cons]
      rw [hC.dim, dims_keys hdm hcd hm]
      ring
    · intro k
      rw [hkc, ← hp.mem_iff, hks, hm]
      simp only [List.mem_append, List.mem_cons]
      constructor
      · rintro (h | h | h)
        · exact Or.inl ⟨Or.inl (Or.inl h), fun h' => h2.2.2 _ h _ h' rfl⟩
        · exact Or.inr h
        · exact Or.inl ⟨Or.inr h, fun h' => h1.2.2 _ (List.mem_append_right _ h') _ h rfl⟩
      · rintro (⟨(h | h) | h, h'⟩ | h)
        · exact Or.inl h
        · exact absurd h h'
        · exact Or.inr (Or.inr h)
        · exact Or.inr (Or.inl h)
    · intro σ hσ
      simp only [DS.sem]
      rw [group_elt hC hm hdm ⟨hck.1.1, hck.2⟩]
      exact hval σ hσ
  by_cases hcont : contigLoop cs' (t.is.drop (J1 + 1)) = true
  · rw [if_pos hcont]
    obtain ⟨x, hx, hxk, hlt⟩ := indexPosition_some hJ
    obtain ⟨m, r, hmr, hmk⟩ := contigLoop_true hcont
    have hml : m.length = cs'.length := by simpa [keys] using congrArg List.length hmk
    have hdrop : t.is.drop (J1 + (c1 :: cs').length) = r := by
      rw [List.length_cons, show J1 + (cs'.length + 1) = J1 + 1 + cs'.length by omega, ← List.drop_drop, hmr, ← hml, List.drop_left]
    rw [hdrop]
    have hsplit : t.is = t.is.take J1 ++ (x :: m) ++ r := by
      conv_lhs => rw [hx, hmr]
      simp
    obtain ⟨h1, h2, h3⟩ := fin (t.is.take J1) (x :: m) r t.size t.mem
      (by
        change x.key :: keys m = c1.key :: keys cs'
        rw [hxk, hmk])
      (fun i hi => by rw [← hsplit] at hi; exact Or.inl hi)
      (by rw [← hsplit]) rfl
      (fun σ _ => by rw [← hsplit]; rfl)
    exact ⟨_, rfl, h1, h2, h3⟩
  · rw [if_neg hcont]
    obtain ⟨Q, hQ, hQl, hQv⟩ := frontLoop_ok hnd (c1 :: cs') 0 (List.replicate t.is.length none) hcn hcs (by simp)
    rw [hQ]
    simp only
    set S := keys (c1 :: cs') with hS
    have hQe : Q = t.is.map fun i => if i.key ∈ S then some (S.idxOf i.key) else none := by
      apply List.ext_getElem (by simp [hQl])
      intro n h1 h2
      have h3 : n < t.is.length := by omega
      have := hQv n h3
      rw [List.getElem?_eq_getElem h1] at this
      rw [List.getElem_map]
      by_cases hn : t.is[n].key ∈ S
      · rw [if_pos hn] at this ⊢
        simpa using this
      · rw [if_neg hn] at this ⊢
        rw [List.getElem?_replicate_of_lt h3] at this
        simpa using this
    rw [hQe, backLoop_ok (· ∈ S) (fun k => S.idxOf k) t.is (0 + (c1 :: cs').length) hnd]
    set rest := t.is.filter fun i => ¬ i.key ∈ S with hrest
    have hkr : keys rest = (keys t.is).filter (fun k => ¬ k ∈ S) := keys_filter t.is (fun k => decide (¬ k ∈ S))
    have hperm : (S ++ keys rest).Perm (keys t.is) := by
      refine (List.perm_ext_iff_of_nodup ?_ hnd).2 fun k => ?_
      · refine List.nodup_append.2 ⟨hcn, by rw [hkr]; exact hnd.filter _, ?_⟩
        rintro k hk l hl rfl
        rw [hkr] at hl
        have := (List.mem_filter.1 hl).2
        simp at this
        exact this hk
      · rw [List.mem_append, hkr, List.mem_filter]
        constructor
        · rintro (h | h)
          · exact hcs k h
          · exact h.1
        · intro h
          by_cases hk : k ∈ S
          · exact Or.inl hk
          · exact Or.inr ⟨h, by simpa using hk⟩
    have hlen : rest.length + (c1 :: cs').length = t.is.length := by
      have := hperm.length_eq
      simp only [List.length_append, hS, keys, List.length_map] at this
      simp only [List.length_cons] at this ⊢
      omega
    simp only
    rw [if_neg (by simpa using hlen)]
    -- the permutation
    have hP : (t.is.map fun i => if i.key ∈ S then S.idxOf i.key else 0 + (c1 :: cs').length + (keys rest).idxOf i.key) =
        (keys t.is).map fun k => (S ++ keys rest).idxOf k := by
      rw [show keys t.is = t.is.map Index.key from rfl, List.map_map]
      refine List.map_congr_left fun i hi => ?_
      simp only [Function.comp]
      by_cases h : i.key ∈ S
      · rw [if_pos h, List.idxOf_append_of_mem h]
      · rw [if_neg h, List.idxOf_append_of_notMem h]
        simp [hS, keys]
    rw [hP]
    have hLP := labelPerm_idx hperm.symm hnd
    have hdS : ∀ i ∈ c1 :: cs' ++ rest, i.dim = ext i.key := by
      intro i hi
      rcases List.mem_append.1 hi with h | h
      · exact hcd i h
      · exact ht.is.dims i (List.mem_filter.1 h).1
    have hkS : keys (c1 :: cs' ++ rest) = S ++ keys rest := by simp [keys, hS]
    have hprod : ((S ++ keys rest).map ext).prod = (t.is.map (·.dim)).prod := by
      rw [dims_ext ht.is.dims]; exact (hperm.map ext).prod_eq
    obtain ⟨V, hV, m', hm', hv1, _⟩ := runTransform_perm (fun (b : K) (_ : K) => b) ext hLP
      (by
        intro k hk
        obtain ⟨i, hi, rfl⟩ := List.mem_map.1 (hperm.mem_iff.1 hk)
        rw [← ht.is.dims i hi]; exact ht.is.pos i hi)
      (by rw [hprod]; exact hmax) fuel (by rw [hprod]; exact hf) t.mem fresh
    have hVe : Range.extents V = (S ++ keys rest).map ext := by
      obtain ⟨V', hV', hV1, hV2, hV3⟩ := C17_permute_view (init ((keys t.is).map ext)) _ hLP.1 (by
        have := congrArg List.length (extents_init ((keys t.is).map ext))
        simp only [Range.extents, List.length_map] at this
        rw [this, hLP.2.1])
      rw [hV] at hV'
      obtain rfl : V = V' := by simpa using hV'
      have hlen' : (init ((keys t.is).map ext)).length = (keys t.is).length := by
        have := congrArg List.length (extents_init ((keys t.is).map ext)); simpa [Range.extents] using this
      apply get_of_perm hLP.1 (by simp [Range.extents, hV1, hlen']) (by rw [List.length_map, hperm.length_eq, List.length_map])
      intro n d hd
      rw [labelPerm_map hLP ext n d hd]
      have he : (init ((keys t.is).map ext)).map (·.ind) = (keys t.is).map ext := extents_init _
      simp only [Range.extents, List.getElem?_map, hV2 n d hd]
      rw [← List.getElem?_map, he, List.getElem?_map]
    unfold permuteStore
    rw [if_neg (by rw [ht.size]; omega), dims_ext ht.is.dims, hV]
    simp only
    rw [hVe, hm']
    simp only [Run.bind]
    obtain ⟨h1, h2, h3⟩ := fin [] (c1 :: cs') rest ((S ++ keys rest).map ext).prod m' rfl
      (fun i hi => by
        rcases List.mem_append.1 hi with h | h
        · exact Or.inr h
        · exact Or.inl (List.mem_filter.1 h).1)
      (by rw [List.nil_append, hkS]; exact hperm)
      (by rw [hprod, ht.size])
      (fun σ hσ => by
        rw [List.nil_append, dims_ext hdS, vals_keys, hkS, hv1 σ fun k hk => ?_]
        · simp only [DS.sem]
          rw [dims_ext ht.is.dims, vals_keys]
        · obtain ⟨i, hi, rfl⟩ := List.mem_map.1 (hperm.mem_iff.1 hk)
          rw [← ht.is.dims i hi]; exact hσ i hi)
    exact ⟨_, rfl, h1, h2, h3⟩


/-! ## Results -/

theorem mulCombiner_eq {fuel : Nat} {fresh : Int → K} {t : DS K} {C : IndexSet} {k : Key} (h : k ∈ keys t.is) :
    mulCombiner fuel fresh t C = combine fuel fresh t C := by
  unfold mulCombiner
  rw [if_neg]
  intro h0
  rw [List.eq_nil_of_length_eq_zero h0] at h
  simp [keys] at h

omit [CommRing K] [DecidableEq K] in
theorem DS.OK.congr_ext {ext ext' : Key → Nat} {t : DS K} (h : t.OK ext) (he : ∀ k ∈ keys t.is, ext k = ext' k) : t.OK ext' :=
  ⟨⟨h.is.nodup, fun i hi => (h.is.dims i hi).trans (he _ (List.mem_map_of_mem hi)), h.is.pos, h.is.noqn⟩, h.size⟩

/-- What `combiner` builds. -/
theorem combinerInds_ok {ext : Key → Nat} {inds : IndexSet} (hi : IsOK ext inds) {id : Nat} {tags : Verif.TagSet.TagSet} {C : IndexSet}
    (hC : combinerInds id tags inds = .ok C) (hid : ∀ i ∈ inds, i.id ≠ id) :
    ∃ c, C = c :: inds ∧ c.id = id ∧ CombOK (Function.update ext c.key (inds.map (·.dim)).prod) c inds := by
  unfold combinerInds at hC
  split at hC
  · simp at hC
  · rename_i hne
    obtain rfl := (Res.ok.inj hC).symm
    refine ⟨_, rfl, rfl, ?_⟩
    set c : Index := { id := id, dim := (inds.map (·.dim)).prod, dir := 1, tags := if tags.plev < 0 then tags.setPrime 0 else tags, qns := [] } with hc
    have hk : c.key ∉ keys inds := by
      intro h
      obtain ⟨i, h1, h2⟩ := List.mem_map.1 h
      exact hid i h1 (congrArg Prod.fst h2)
    refine ⟨⟨List.nodup_cons.2 ⟨hk, hi.nodup⟩, ?_, ?_, ?_⟩, fun h => hne (by simp [h]), rfl⟩
    · intro i h
      rcases List.mem_cons.1 h with rfl | h
      · rw [Function.update_self]
      · rw [Function.update_of_ne fun e => hk (by rw [← e]; exact List.mem_map_of_mem h)]
        exact hi.dims i h
    · intro i h
      rcases List.mem_cons.1 h with rfl | h
      · refine Nat.pos_of_ne_zero fun h0 => ?_
        obtain ⟨i, h1, h2⟩ := List.mem_map.1 (List.prod_eq_zero_iff.1 h0)
        exact absurd h2 (hi.pos i h1).ne'
      · exact hi.pos i h
    · intro i h
      rcases List.mem_cons.1 h with rfl | h
      · rfl
      · exact hi.noqn i h

theorem combOK_dag {ext : Key → Nat} {c : Index} {cs : IndexSet} (h : CombOK ext c cs) : CombOK ext c.dag (cs.map Index.dag) := by
  have e : c.dag :: cs.map Index.dag = (c :: cs).map Index.dag := rfl
  have hk : keys ((c :: cs).map Index.dag) = keys (c :: cs) := by
    unfold keys; rw [List.map_map]; rfl
  have hm : ∀ i ∈ (c :: cs).map Index.dag, ∃ j ∈ c :: cs, i.key = j.key ∧ i.dim = j.dim ∧ i.qns = j.qns := by
    intro i hi
    obtain ⟨j, hj, rfl⟩ := List.mem_map.1 hi
    exact ⟨j, hj, rfl, rfl, rfl⟩
  refine ⟨?_, by simpa using h.ne, ?_⟩
  · rw [e]
    refine ⟨by rw [hk]; exact h.is.nodup, ?_, ?_, ?_⟩ <;> intro i hi <;> obtain ⟨j, hj, h1, h2, h3⟩ := hm i hi
    · rw [h1, h2]; exact h.is.dims j hj
    · rw [h2]; exact h.is.pos j hj
    · rw [h3]; exact h.is.noqn j hj
  · rw [List.map_map]; exact h.dim

/-- **C26, round trip.** Let `C` be `combiner(inds)` for any of the indices of `T`, in any order. `N = T*C` has the combined index in place of
them, and its element for the values `σ` of the remaining indices and value `v` of the combined index is the element of `T` for which
`v` is the position, in column-major order, of the values of the indices `inds`. `M = N*dag(C)` has the indices of `T` and the elements of `T`. All this with
no memory error, whatever the contents of new memory and whether or not the indices are neighbours in `T`. -/
theorem C26_roundtrip {ext : Key → Nat} {t : DS K} (ht : t.OK ext) {inds : IndexSet} (hi : IsOK ext inds) (hsub : ∀ k ∈ keys inds, k ∈ keys t.is)
    {id : Nat} {tags : Verif.TagSet.TagSet} {C : IndexSet} (hC : combinerInds id tags inds = .ok C) (hid : ∀ i ∈ t.is, i.id ≠ id)
    (hmax : (((t.is.map (·.dim)).prod : Nat) : Int) ≤ offMax) (fuel : Nat) (hf : (t.is.map (·.dim)).prod < fuel) (fresh : Int → K) :
    ∃ c N M, C = c :: inds ∧ c.dim = (inds.map (·.dim)).prod ∧
      mulCombiner fuel fresh t C = some (.ok N) ∧ mulCombiner fuel fresh N (C.map Index.dag) = some (.ok M) ∧
      (keys N.is).Perm (c.key :: (keys t.is).filter (· ∉ keys inds)) ∧ (keys M.is).Perm (keys t.is) ∧ M.OK ext ∧
      ∀ σ : Key → Nat, (∀ i ∈ t.is, σ i.key < i.dim) → ∃ x, t.getElt (t.is.map fun i => σ i.key) = .ok x ∧
        N.getElt (N.is.map fun i => if i.key = c.key then rank (inds.map (·.dim)) (inds.map fun i => σ i.key) else σ i.key) = .ok x ∧
        M.getElt (M.is.map fun i => σ i.key) = .ok x := by
  have hkid : ∀ k ∈ keys t.is, k.1 ≠ id := by
    intro k hk
    obtain ⟨i, h1, rfl⟩ := List.mem_map.1 hk
    exact hid i h1
  obtain ⟨c, rfl, hcid, hcomb⟩ := combinerInds_ok hi hC fun i h => hkid _ (hsub _ (List.mem_map_of_mem h))
  have hck : c.key ∉ keys t.is := fun h => hkid _ h hcid
  set ext' := Function.update ext c.key (inds.map (·.dim)).prod with hext
  have hee : ∀ k, k ≠ c.key → ext' k = ext k := fun k hk => Function.update_of_ne hk _ _
  have ht' : t.OK ext' := ht.congr_ext fun k hk => (hee k fun e => hck (e ▸ hk)).symm
  obtain ⟨N, n1, n2, n3, n4⟩ := combine_ok hcomb ht' hck hsub fuel fresh hmax hf
  obtain ⟨i0, hi0⟩ := List.exists_mem_of_ne_nil _ hcomb.ne
  have hki0 : i0.key ∈ keys t.is := hsub _ (List.mem_map_of_mem hi0)
  have hcN : c.key ∈ keys N.is := (n3 _).2 (Or.inr rfl)
  have hdk : keys (inds.map Index.dag) = keys inds := by unfold keys; rw [List.map_map]; rfl
  obtain ⟨M, m1, m2, m3, m4⟩ := uncombine_ok (combOK_dag hcomb) n2 hcN (by
    rw [hdk]
    intro k hk h
    rcases (n3 k).1 h with h | h
    · exact h.2 hk
    · exact hck (h ▸ hsub k hk)) fuel fresh
  have hMk : ∀ k, k ∈ keys M.is ↔ k ∈ keys t.is := by
    intro k
    have hdc : c.dag.key = c.key := rfl
    rw [m3, n3, hdk, hdc]
    constructor
    · rintro (⟨h | h, h'⟩ | h)
      · exact h.1
      · exact absurd h h'
      · exact hsub k h
    · intro h
      by_cases hk : k ∈ keys inds
      · exact Or.inr hk
      · exact Or.inl ⟨Or.inl ⟨h, hk⟩, fun e => hck (e ▸ h)⟩
  have hM : M.OK ext := m2.congr_ext fun k hk => hee k fun e => hck (e ▸ (hMk k).1 hk)
  refine ⟨c, N, M, rfl, hcomb.dim, (mulCombiner_eq hki0).trans n1, (mulCombiner_eq hcN).trans m1, ?_,
    (List.perm_ext_iff_of_nodup m2.is.nodup ht.is.nodup).2 hMk, hM, fun σ hσ => ⟨t.sem.val σ, dense_elt ht hσ, ?_, ?_⟩⟩
  · refine (List.perm_ext_iff_of_nodup n2.is.nodup (List.nodup_cons.2 ⟨fun h => hck (List.mem_filter.1 h).1, ht.is.nodup.filter _⟩)).2 fun k => ?_
    rw [n3, List.mem_cons, List.mem_filter]
    simp only [decide_not, Bool.not_eq_true', decide_eq_false_iff_not]
    exact or_comm
  · have e : (N.is.map fun i => if i.key = c.key then rank (inds.map (·.dim)) (inds.map fun i => σ i.key) else σ i.key) =
        N.is.map fun i => combVal c inds σ i.key := by
      refine List.map_congr_left fun i _ => ?_
      unfold combVal
      by_cases h : i.key = c.key
      · rw [if_pos h, h, Function.update_self]
      · rw [if_neg h, Function.update_of_ne h]
    rw [e, ← n4 σ hσ]
    refine dense_elt n2 fun i h => ?_
    rw [n2.is.dims i h]
    have hik := (n3 i.key).1 (List.mem_map_of_mem h)
    unfold combVal
    by_cases hic : i.key = c.key
    · rw [hic, Function.update_self, hext, Function.update_self]
      refine rank_lt (valid_dims fun j hj => ?_)
      obtain ⟨l, hl, e⟩ := List.mem_map.1 (hsub _ (List.mem_map_of_mem hj))
      rw [hi.dims j hj, ← e, ← ht.is.dims l hl]
      exact hσ l hl
    · rw [Function.update_of_ne hic]
      rcases hik with hik | hik
      · obtain ⟨l, hl, e⟩ := List.mem_map.1 hik.1
        rw [← e, ← ht'.is.dims l hl]
        exact hσ l hl
      · exact absurd hik hic
  · have hr : ∀ i ∈ M.is, σ i.key < i.dim := by
      intro i h
      obtain ⟨l, hl, e⟩ := List.mem_map.1 ((hMk _).1 (List.mem_map_of_mem h))
      rw [hM.is.dims i h, ← e, ← ht.is.dims l hl]
      exact hσ l hl
    have e : combVal c.dag (inds.map Index.dag) σ = combVal c inds σ := by
      unfold combVal
      rw [List.map_map, List.map_map]; rfl
    rw [← n4 σ hσ, ← e, ← m4 σ]
    exact dense_elt m2 hr

/-- **C26, combining is a product.** For a tensor with all the indices of the combiner but not the combined one, `T*C` holds the product of `T` and the tensor which
is one where the value of the combined index is the position of the values of the others, and zero elsewhere. -/
theorem C26_combine_product {ext : Key → Nat} {c : Index} {cs : IndexSet} (hC : CombOK ext c cs) {t : DS K} (ht : t.OK ext)
    (hc : c.key ∉ keys t.is) (hcs : ∀ k ∈ keys cs, k ∈ keys t.is) (hmax : (((t.is.map (·.dim)).prod : Nat) : Int) ≤ offMax)
    (fuel : Nat) (hf : (t.is.map (·.dim)).prod < fuel) (fresh : Int → K) :
    ∃ N, mulCombiner fuel fresh t (c :: cs) = some (.ok N) ∧ Holds ext (.dense N) (mul ext t.sem (combSem K c cs)) := by
  obtain ⟨N, n1, n2, n3, n4⟩ := combine_ok hC ht hc hcs fuel fresh hmax hf
  obtain ⟨i0, hi0⟩ := List.exists_mem_of_ne_nil _ hC.ne
  have hcd : ∀ i ∈ cs, i.dim = ext i.key := fun i hi => hC.is.dims i (List.mem_cons_of_mem _ hi)
  have hcn : (keys cs).Nodup := (List.nodup_cons.1 hC.is.nodup).2
  have hcc : c.key ∉ keys cs := (List.nodup_cons.1 hC.is.nodup).1
  refine ⟨N, (mulCombiner_eq (hcs _ (List.mem_map_of_mem hi0))).trans n1, Holds.of ?_ n2 n2.is ?_ ?_⟩
  · refine List.nodup_append.2 ⟨ht.is.nodup.filter _, hC.is.nodup.filter _, ?_⟩
    rintro k hk l hl rfl
    have h1 := (List.mem_filter.1 hk).1
    have h2 := (List.mem_filter.1 hl).2
    simp only [decide_not, Bool.not_eq_true', decide_eq_false_iff_not] at h2
    exact h2 h1
  · intro k
    change k ∈ keys N.is ↔ _
    rw [n3, mul_mem]
    simp only [combSem, DS.sem, List.mem_cons, not_or]
    constructor
    · rintro (⟨h1, h2⟩ | rfl)
      · exact Or.inl ⟨h1, fun e => hc (e ▸ h1), h2⟩
      · exact Or.inr ⟨Or.inl rfl, hc⟩
    · rintro (⟨h1, h2, h3⟩ | ⟨h1 | h1, h2⟩)
      · exact Or.inl ⟨h1, h3⟩
      · exact Or.inr h1
      · exact absurd (hcs k h1) h2
  · intro σ hσ
    change ∀ i ∈ N.is, σ i.key < i.dim at hσ
    rw [show (IT.dense N).is = N.is from rfl, dense_elt n2 hσ]
    congr 1
    have hv : σ c.key < ((keys cs).map ext).prod := by
      obtain ⟨i, h1, h2⟩ := List.mem_map.1 ((n3 c.key).2 (Or.inr rfl))
      have := hσ i h1
      rw [n2.is.dims i h1, h2] at this
      rwa [← hC.is.dims c List.mem_cons_self, hC.dim, dims_ext hcd] at this
    -- the sum has one term
    have hperm : ∀ p : Key → Bool, (∀ k, p k = true ↔ k ∈ c.key :: keys cs) → ((keys t.is).filter p).Perm (keys cs) := by
      intro p hp
      refine (List.perm_ext_iff_of_nodup (ht.is.nodup.filter _) hcn).2 fun k => ?_
      simp only [List.mem_filter, hp, List.mem_cons]
      constructor
      · rintro ⟨h1, h2 | h2⟩
        · exact absurd (h2 ▸ h1) hc
        · exact h2
      · intro h; exact ⟨hcs k h, Or.inr h⟩
    refine Eq.trans ?_ (sumOver_perm ext (hperm _ fun k => by simp [combSem]) (ht.is.nodup.filter _) _ σ).symm
    rw [
      Net.sumOver_congr ext (keys cs) σ (G := fun τ => t.sem.val τ * if σ c.key = rank ((keys cs).map ext) ((keys cs).map τ) then 1 else 0)
        (fun τ hτ => by simp only [combSem]; rw [hτ _ hcc, vals_keys, dims_ext hcd]),
      sumOver_rank ext t.sem.val (keys cs) σ (σ c.key) hcn hv]
    obtain ⟨p1, p2⟩ := putRank_rank ext (keys cs) σ (σ c.key) hcn hv
    set τ := putRank ext σ (keys cs) (σ c.key) with hτ
    have hτo : ∀ k, k ∉ keys cs → τ k = σ k := fun k hk => putRank_other ext _ _ _ _ hk
    rw [← n4 τ]
    · simp only [DS.sem]
      congr 3
      refine List.map_congr_left fun i h => ?_
      unfold combVal
      by_cases hic : i.key = c.key
      · rw [hic, Function.update_self, vals_keys, dims_ext hcd, p1]
      · rw [Function.update_of_ne hic]
        rcases (n3 i.key).1 (List.mem_map_of_mem h) with h' | h'
        · exact (hτo _ h'.2).symm
        · exact absurd h' hic
    · intro i h
      by_cases hk : i.key ∈ keys cs
      · rw [ht.is.dims i h]; exact p2 _ hk
      · rw [hτo _ hk, ht.is.dims i h]
        obtain ⟨l, hl, e⟩ := List.mem_map.1 ((n3 i.key).2 (Or.inl ⟨List.mem_map_of_mem h, hk⟩))
        rw [← e, ← n2.is.dims l hl]
        exact hσ l hl

/-- **C26, uncombining is a product.** The same for a tensor with the combined index and none of the others. -/
theorem C26_uncombine_product {ext : Key → Nat} {c : Index} {cs : IndexSet} (hC : CombOK ext c cs) {t : DS K} (ht : t.OK ext)
    (hc : c.key ∈ keys t.is) (hcs : ∀ k ∈ keys cs, k ∉ keys t.is) (fuel : Nat) (fresh : Int → K) :
    ∃ N, mulCombiner fuel fresh t (c :: cs) = some (.ok N) ∧ Holds ext (.dense N) (mul ext t.sem (combSem K c cs)) := by
  obtain ⟨N, n1, n2, n3, n4⟩ := uncombine_ok hC ht hc hcs fuel fresh
  have hcd : ∀ i ∈ cs, i.dim = ext i.key := fun i hi => hC.is.dims i (List.mem_cons_of_mem _ hi)
  have hcc : c.key ∉ keys cs := (List.nodup_cons.1 hC.is.nodup).1
  refine ⟨N, (mulCombiner_eq hc).trans n1, Holds.of ?_ n2 n2.is ?_ ?_⟩
  · refine List.nodup_append.2 ⟨ht.is.nodup.filter _, hC.is.nodup.filter _, ?_⟩
    rintro k hk l hl rfl
    have h1 := (List.mem_filter.1 hk).1
    have h2 := (List.mem_filter.1 hl).2
    simp only [decide_not, Bool.not_eq_true', decide_eq_false_iff_not] at h2
    exact h2 h1
  · intro k
    change k ∈ keys N.is ↔ _
    rw [n3, mul_mem]
    simp only [combSem, DS.sem, List.mem_cons, not_or]
    constructor
    · rintro (⟨h1, h2⟩ | h)
      · exact Or.inl ⟨h1, h2, fun h => hcs k h h1⟩
      · exact Or.inr ⟨Or.inr h, hcs k h⟩
    · rintro (⟨h1, h2, h3⟩ | ⟨h1 | h1, h2⟩)
      · exact Or.inl ⟨h1, h2⟩
      · exact absurd (h1 ▸ hc) h2
      · exact Or.inr h1
  · intro σ hσ
    change ∀ i ∈ N.is, σ i.key < i.dim at hσ
    rw [show (IT.dense N).is = N.is from rfl, dense_elt n2 hσ, n4]
    congr 1
    have hperm : ∀ p : Key → Bool, (∀ k, p k = true ↔ k ∈ c.key :: keys cs) → ((keys t.is).filter p).Perm [c.key] := by
      intro p hp
      refine (List.perm_ext_iff_of_nodup (ht.is.nodup.filter _) (by simp)).2 fun k => ?_
      simp only [List.mem_filter, hp, List.mem_cons, List.not_mem_nil, or_false]
      constructor
      · rintro ⟨h1, h2 | h2⟩
        · exact h2
        · exact absurd h1 (hcs k h2)
      · rintro rfl; exact ⟨hc, Or.inl rfl⟩
    refine Eq.trans ?_ (sumOver_perm ext (hperm _ fun k => by simp [combSem]) (ht.is.nodup.filter _) _ σ).symm
    simp only [sumOver]
    have hkr : ∀ (f : Key → Nat) (v : Nat), (cs.map fun i => Function.update f c.key v i.key) = cs.map fun i => f i.key := by
      intro f v
      refine List.map_congr_left fun i hi => ?_
      rw [Function.update_of_ne fun e => hcc (by rw [← e]; exact List.mem_map_of_mem hi)]
    rw [sum_eq_single_of_mem (rank (cs.map (·.dim)) (cs.map fun i => σ i.key))]
    · simp only [combSem]
      rw [Function.update_self, hkr, if_pos rfl, mul_one]
      rfl
    · rw [mem_range, ← hC.is.dims c List.mem_cons_self, hC.dim]
      refine rank_lt (valid_dims fun i hi => ?_)
      obtain ⟨l, hl, e⟩ := List.mem_map.1 ((n3 i.key).2 (Or.inr (List.mem_map_of_mem hi)))
      rw [hcd i hi, ← e, ← n2.is.dims l hl]
      exact hσ l hl
    · intro v _ hv
      simp only [combSem]
      rw [Function.update_self, hkr, if_neg hv, mul_zero]

omit [CommRing K] [DecidableEq K] in
/-- **C26, errors.** When the tensor has neither the combined index nor all the others, the product is reported as an error. -/
theorem C26_missing {c : Index} {cs : IndexSet} {t : DS K} (hne : cs ≠ []) (hc : c.key ∉ keys t.is) {k : Key} (hk : k ∈ keys cs) (hkt : k ∉ keys t.is)
    (fuel : Nat) (fresh : Int → K) : mulCombiner fuel fresh t (c :: cs) = some .throw := by
  unfold mulCombiner
  by_cases h0 : t.is.length = 0
  · rw [if_pos h0]
  rw [if_neg h0]
  simp only [combine, indexPosition_none.2 hc]
  rcases cs with _ | ⟨c1, cs'⟩
  · exact absurd rfl hne
  simp only
  rcases hJ : indexPosition t.is c1 with _ | J1
  · rfl
  simp only
  rw [if_neg]
  · have front : ∀ (l : IndexSet) (ni : Nat) (P : List (Option Nat)), k ∈ keys l → frontLoop t.is l ni P = .throw := by
      intro l
      induction l with
      | nil => intro _ _ h; simp [keys] at h
      | cons x l ih =>
        intro ni P h
        simp only [frontLoop]
        rcases hx : indexPosition t.is x with _ | j
        · rfl
        · simp only
          refine ih _ _ ?_
          rcases List.mem_cons.1 h with rfl | h
          · rw [indexPosition_none.2 hkt] at hx; simp at hx
          · exact h
    rw [front _ _ _ hk]
  · intro h
    obtain ⟨m, r, hmr, hmk⟩ := contigLoop_true h
    obtain ⟨x, hx, hxk, _⟩ := indexPosition_some hJ
    apply hkt
    rw [hx, hmr]
    rcases List.mem_cons.1 hk with rfl | hk
    · simp only [keys, List.map_append, List.map_cons, hxk]; simp
    · have : k ∈ keys m := by rw [hmk]; exact hk
      simp only [keys, List.map_append, List.map_cons, List.mem_append, List.mem_cons]
      exact Or.inr (Or.inr (Or.inl this))

namespace CombEx

def ix (id dim : Nat) : Index := ⟨id, dim, 1, Verif.TagSet.TagSet.default.setPrime 0, []⟩

/-- `T(i,j,k)` with dimensions 2, 3, 2 and element `a` at position `a`. -/
def T : DS Int := ⟨[ix 1 2, ix 2 3, ix 3 2], 12, fun a => a⟩

def ext : Key → Nat := fun k => if k.1 = 2 then 3 else if k.1 = 9 then 4 else 2

def cells : Run (DS Int) → Option (Res (List Nat × List Int))
  | some (.ok t) => some (.ok (t.is.map (·.id), (List.range t.size).map fun (a : Nat) => t.mem a))
  | some .throw => some .throw
  | some .ub => some .ub
  | none => none

/-- Neighbouring indices in the same order: only the indices change. -/
example : cells (mulCombiner 20 (fun _ => -1) T [ix 9 6, ix 2 3, ix 3 2]) = some (.ok ([1, 9], [0, 1, 2, 3, 4, 5, 6, 7, 8, 9, 10, 11])) := by
  decide +kernel
/-- `k` and `i` are combined: value 0 of `j` has first `k=0,i=0`, then `k=1,i=0`. -/
example : cells (mulCombiner 20 (fun _ => -1) T [ix 9 4, ix 3 2, ix 1 2]) = some (.ok ([9, 2], [0, 6, 1, 7, 2, 8, 3, 9, 4, 10, 5, 11])) := by
  decide +kernel
example : cells (mulCombiner 20 (fun _ => -1) T [ix 9 6, ix 3 2, ix 4 3]) = some .throw := by decide +kernel

/-- The hypotheses are met. -/
example : T.OK ext ∧ IsOK ext [ix 3 2, ix 1 2] ∧ (∀ k ∈ keys [ix 3 2, ix 1 2], k ∈ keys T.is) ∧
    combinerInds 9 Verif.TagSet.TagSet.default [ix 3 2, ix 1 2] = .ok [ix 9 4, ix 3 2, ix 1 2] ∧ (∀ i ∈ T.is, i.id ≠ 9) ∧ CombOK ext (ix 9 4) [ix 3 2, ix 1 2] :=
  ⟨⟨⟨by decide +kernel, by decide +kernel, by decide, by decide⟩, rfl⟩, ⟨by decide +kernel, by decide +kernel, by decide, by decide⟩,
    by decide +kernel, rfl, by decide, ⟨by decide +kernel, by decide +kernel, by decide, by decide⟩, by decide, rfl⟩

end CombEx

open CombEx in
/-- When a tensor has the combined index and also some of the others, `combine` only replaces the combined index: the result has a repeated index instead
of the product with the combiner, which sums over all the shared indices. -/
theorem C26_shared_counterexample :
    ∃ (t : DS Int) (N : DS Int), t.OK ext ∧ CombOK ext (ix 9 4) [ix 3 2, ix 1 2] ∧ (∀ k ∈ keys t.is, k ∈ keys [ix 9 4, ix 3 2, ix 1 2]) ∧
      mulCombiner 20 (fun _ => 0) t [ix 9 4, ix 3 2, ix 1 2] = some (.ok N) ∧ ¬ (keys N.is).Nodup ∧
      ¬ (keys N.is).Perm (mul ext t.sem (combSem Int (ix 9 4) [ix 3 2, ix 1 2])).inds :=
  ⟨⟨[ix 9 4, ix 1 2], 8, fun a => a⟩, ⟨[ix 3 2, ix 1 2, ix 1 2], 8, fun a => a⟩,
    ⟨⟨by decide +kernel, by decide +kernel, by decide, by decide⟩, rfl⟩, ⟨⟨by decide +kernel, by decide +kernel, by decide, by decide⟩, by decide, rfl⟩,
    by decide +kernel, rfl, by decide +kernel, by decide +kernel⟩

end Verif.Net
