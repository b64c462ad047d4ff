import Verif.Util.Hdf5
import Verif.QN.Props
import Verif.TagSet.Props

/-!
# What is read from an HDF5 file is what was written
-/

namespace Verif.Hdf5

open Verif.Index Verif.QDense
open Verif.TagSet (TagSet)

variable {R C : Type}

theorem find_put_self (g : Group R C) (k : Key) (x : Node R C) : find (put g k x) k = .ok x := by
  simp [find, put]

theorem find_put_ne (g : Group R C) {k k' : Key} (x : Node R C) (h : k ≠ k') : find (put g k x) k' = find g k' := by
  have : (put g k x).subs.find? (fun p => p.1 = k') = g.subs.find? (fun p => p.1 = k') := by
    simp only [put, List.find?_cons, h, decide_false, List.find?_filter]
    congr 1
    funext p
    by_cases e : p.1 = k'
    · simp [e, Ne.symm h]
    · simp [e]
  unfold find
  rw [this]

theorem find_putAll_ne (s : String) (k : Key) : ∀ (l : List (Node R C)) (n : Nat) (g : Group R C), (∀ m, n ≤ m → k ≠ .num s m) →
    find (putAll s n l g) k = find g k
  | [], _, _, _ => rfl
  | x :: xs, n, g, h => by
    rw [putAll, find_putAll_ne s k xs (n + 1) _ (fun m hm => h m (by omega)), find_put_ne _ _ (Ne.symm (h n (le_refl _)))]

theorem find_putAll (s : String) : ∀ (l : List (Node R C)) (n : Nat) (g : Group R C) (m : Nat) (hm : m < l.length),
    find (putAll s n l g) (.num s (n + m)) = .ok l[m]
  | x :: xs, n, g, 0, _ => by
    rw [putAll, find_putAll_ne s _ xs (n + 1) _ (fun m hm e => by injection e; omega)]
    exact find_put_self _ _ _
  | x :: xs, n, g, m + 1, hm => by
    have := find_putAll s xs (n + 1) (put g (.num s n) x) m (by simpa using hm)
    rw [putAll, show n + (m + 1) = n + 1 + m by omega, this]
    rfl

theorem attrs_put (g : Group R C) (k : Key) (x : Node R C) : (put g k x).attrs = g.attrs := rfl

theorem attrs_putAll (s : String) : ∀ (l : List (Node R C)) (n : Nat) (g : Group R C), (putAll s n l g).attrs = g.attrs
  | [], _, _ => rfl
  | x :: xs, n, g => by rw [putAll, attrs_putAll s xs]; rfl

theorem openGroup_of_find {g : Group R C} {k : Key} {x : Group R C} (h : find g k = .ok x.node) : openGroup g k = .ok x := by
  simp [openGroup, h, Group.node]

theorem readAll_ok {α β : Type} {f : Nat → Res α} (P : β → α → Prop) : ∀ (l : List β) (n : Nat),
    (∀ (m : Nat) (hm : m < l.length), ∃ a, f (n + m) = .ok a ∧ P l[m] a) → ∃ r, readAll f n l.length = .ok r ∧ List.Forall₂ P l r
  | [], _, _ => ⟨[], rfl, .nil⟩
  | b :: l, n, h => by
    obtain ⟨a, ha, pa⟩ := h 0 (by simp)
    obtain ⟨r, hr, pr⟩ := readAll_ok P l (n + 1) (fun m hm => by
      have := h (m + 1) (by simpa using hm)
      rwa [show n + (m + 1) = n + 1 + m by omega] at this)
    exact ⟨a :: r, by simp only [List.length_cons, readAll]; rw [show f n = .ok a from ha]; simp only [Res.bind]; rw [hr], .cons pa pr⟩

theorem readTags_find {g : Group R C} {k : Key} {t : TagSet} (h : find g k = .ok (tagsNode t)) : readTags g k = TagSet.h5read t.h5write := by
  unfold readTags
  rw [openGroup_of_find h]
  simp [Res.bind, checkType, getAttr, attrs_put, newGroup, getLong, getStr, find_put_self, find_put_ne, TagSet.h5write]

theorem readQN_find {g : Group R C} {k : Key} {q : Verif.QN.QN} (h : find g k = .ok (qnNode q)) (hq : q.length = 4) :
    readQN g k = Verif.QN.QN.h5read q.write := by
  have e : (q.map (·.name)).zip ((q.map (·.val)).zip (q.map (·.mod))) = q.write := by
    unfold Verif.QN.QN.write
    clear h hq
    induction q with
    | nil => rfl
    | cons v q ih => simp [ih]
  have e4 : q.write.take 4 = q.write := List.take_of_length_le (by simp [Verif.QN.QN.write, hq])
  unfold readQN
  rw [openGroup_of_find h]
  simp only [Res.bind, checkType, getAttr, attrs_put, newGroup, getLongs, getNames, find_put_self]
  simp [find_put_self, find_put_ne, hq, e, e4, Res.bind]

/-- An Index as read compared with the one written. -/
structure Same (i j : Index) : Prop where
  id : j.id = i.id
  dim : j.dim = i.dim
  dir : j.dir = i.dir
  qns : j.qns = i.qns
  tags : j.tags.eq i.tags = true

/-- An Index which survives: its tags are without commas, spaces and characters after a zero, its direction is In or Out, and its quantum numbers, if there are any, have
four names each. -/
structure Plain (i : Index) : Prop where
  reach : TagSet.Reach i.tags
  plain : ∀ t ∈ i.tags.live, TagSet.PlainName t
  dir : i.dir = -1 ∨ i.dir = 1
  qns : ∀ q ∈ i.qns, ∃ M l, Verif.QN.WF M q.1 l ∧ l.length = 4

theorem readSpace_find {g : Group R C} {qns : List (Verif.QN.QN × Nat)} (h : find g (.fixed "space") = .ok (spaceNode qns))
    (hq : ∀ q ∈ qns, ∃ M l, Verif.QN.WF M q.1 l ∧ l.length = 4) : readSpace g = .ok qns := by
  unfold readSpace
  rw [openGroup_of_find h]
  have h1 : find (putAll "QN[%d]" 1 (qns.map fun q => qnNode q.1) (put (newGroup "QNBlocks" : Group R C) (.fixed "length") (.long qns.length)))
      (.fixed "length") = .ok (.long qns.length) := by
    rw [find_putAll_ne _ _ _ _ _ (by simp), find_put_self]
  simp only [Res.bind, getLong, getLongs, find_put_self]
  rw [find_put_ne _ _ (by simp), h1]
  simp only
  rw [if_neg (by omega)]
  obtain ⟨r, hr, pr⟩ := readAll_ok (fun a b => b = a) (f := fun m => (readQN (put (putAll "QN[%d]" 1 (qns.map fun q => qnNode q.1)
    (put (newGroup "QNBlocks" : Group R C) (.fixed "length") (.long qns.length))) (.fixed "dims") (.longs (qns.map fun q => (q.2 : Int)))) (.num "QN[%d]" m)).bind fun q =>
      match (qns.map fun q => (q.2 : Int))[m - 1]? with
      | some d => .ok (q, d.toNat)
      | none => .ub) qns 1 (fun m hm => by
    refine ⟨qns[m], ?_, rfl⟩
    obtain ⟨M, l, w, hl⟩ := hq qns[m] (List.getElem_mem hm)
    have h4 : qns[m].1.length = 4 := by rw [w.eq, hl]; simp [hl]
    have hf : find (put (putAll "QN[%d]" 1 (qns.map fun q => qnNode q.1) (put (newGroup "QNBlocks" : Group R C) (.fixed "length") (.long qns.length)))
        (.fixed "dims") (.longs (qns.map fun q => (q.2 : Int)))) (.num "QN[%d]" (1 + m)) = .ok (qnNode qns[m].1) := by
      rw [find_put_ne _ _ (by simp), find_putAll _ _ _ _ m (by simpa using hm)]
      simp
    rw [readQN_find hf h4, Verif.QN.C09_h5_full_partial w hl]
    simp [Res.bind, hm])
  have e : r = qns := by
    clear hr hq h h1
    induction pr with
    | nil => rfl
    | cons a _ ih => rw [a, ih]
  rw [Int.toNat_natCast, ← e]
  rw [e] at hr ⊢
  exact hr

theorem tags_back {t u : TagSet} (h : u.eq t = true) : ((if u.plev < 0 then u.setPrime 0 else u).setPrime t.plev).eq t = true := by
  have e : u.size = t.size ∧ u.live = t.live := by
    unfold TagSet.eq at h
    split at h
    · simp at h
    · split at h
      · simp at h
      · rename_i a
        exact ⟨by simpa using a, by simpa using h⟩
  have e2 : ∀ p, ((if u.plev < 0 then u.setPrime 0 else u).setPrime p).size = t.size ∧
      ((if u.plev < 0 then u.setPrime 0 else u).setPrime p).live = t.live ∧ ((if u.plev < 0 then u.setPrime 0 else u).setPrime p).plev = p := by
    intro p
    split <;> exact ⟨e.1, e.2, rfl⟩
  obtain ⟨a, b, c⟩ := e2 t.plev
  unfold TagSet.eq
  rw [a, b, c]
  simp

/-- Reading an Index from a group of which the members are known. -/
theorem readIndex_of {g G : Group R C} {k : Key} {i : Index} {sp : String} (h : find g k = .ok G.node) (p : Plain i) (a : getAttr G "type" = .ok "Index")
    (b : getAttr G "space_type" = .ok sp) (h1 : find G (.fixed "id") = .ok (.ulong i.id)) (h2 : find G (.fixed "dim") = .ok (.long i.dim))
    (h3 : find G (.fixed "dir") = .ok (.long i.dir)) (h4 : find G (.fixed "plev") = .ok (.long i.tags.plev))
    (h5 : find G (.fixed "tags") = .ok (tagsNode i.tags)) (h6 : (if sp = "QNBlocks" then readSpace G else .ok []) = .ok i.qns) :
    ∃ j, readIndex g k = .ok j ∧ Same i j := by
  obtain ⟨t, ht, et⟩ := TagSet.C03_h5_roundtrip p.reach p.plain
  have hd : toArrow i.dir = i.dir := by
    rcases p.dir with e | e <;> rw [e] <;> rfl
  refine ⟨⟨i.id, i.dim, i.dir, (if t.plev < 0 then t.setPrime 0 else t).setPrime i.tags.plev, i.qns⟩, ?_, ⟨rfl, rfl, rfl, rfl, tags_back et⟩⟩
  unfold readIndex
  rw [openGroup_of_find h]
  simp only [Res.bind, checkType, a, ne_eq, not_true_eq_false, if_false, getUlong, getLong, h1, h2, h3, h4, readTags_find h5, ht, b, h6, hd, Int.toNat_natCast]
  rfl

/-- The group of an Index. -/
theorem readIndex_find {g : Group R C} {k : Key} {i : Index} (h : find g k = .ok (indexNode i)) (p : Plain i) :
    ∃ j, readIndex g k = .ok j ∧ Same i j := by
  have at' : ∀ (G : Group R C) (a : List (String × Attr)) (k : Key), find { G with attrs := a } k = find G k := fun _ _ _ => rfl
  by_cases hq : i.qns = []
  · simp only [indexNode, hq, List.isEmpty_nil, if_true] at h
    refine readIndex_of (sp := "Int") h p rfl rfl ?_ ?_ ?_ ?_ ?_ (by rw [hq]; simp)
    all_goals rw [at']; simp [find_put_self, find_put_ne]
  · have hq' : i.qns.isEmpty = false := by simpa using hq
    simp only [indexNode, hq', Bool.false_eq_true, if_false] at h
    refine readIndex_of (sp := "QNBlocks") h p rfl rfl ?_ ?_ ?_ ?_ ?_ (by rw [if_pos rfl, readSpace_find (find_put_self _ _ _) p.qns])
    all_goals rw [find_put_ne _ _ (by simp), at']; simp [find_put_self, find_put_ne]

theorem readInds_find {g : Group R C} {k : Key} {is : IndexSet} (h : find g k = .ok (indsNode is)) (p : ∀ i ∈ is, Plain i) :
    ∃ js, readInds g k = .ok js ∧ List.Forall₂ Same is js := by
  unfold readInds
  rw [openGroup_of_find h]
  have h1 : find (putAll "index_%d" 1 (is.map indexNode) (put (newGroup "IndexSet" : Group R C) (.fixed "length") (.long is.length))) (.fixed "length") =
      .ok (.long is.length) := by
    rw [find_putAll_ne _ _ _ _ _ (by simp), find_put_self]
  have ht : checkType (putAll "index_%d" 1 (is.map indexNode) (put (newGroup "IndexSet" : Group R C) (.fixed "length") (.long is.length))) "IndexSet" = .ok () := by
    simp [checkType, getAttr, attrs_putAll, attrs_put, newGroup, Res.bind]
  simp only [Res.bind, ht, getLong, h1]
  rw [if_neg (by omega), Int.toNat_natCast]
  exact readAll_ok Same is 1 (fun m hm => readIndex_find (by rw [find_putAll _ _ _ _ m (by simpa using hm)]; simp) (p _ (List.getElem_mem hm)))

theorem offsets_back (N : Nat) : ∀ (o : List BlOf), (∀ b ∈ o, b.block.length = N) →
    ∃ a, offsetsToArray N o = .ok a ∧ a.length = o.length * (N + 1) ∧ arrayToOffsets N o.length a = o
  | [], _ => ⟨[], rfl, by simp, rfl⟩
  | b :: o, h => by
    obtain ⟨a, ha, la, ra⟩ := offsets_back N o (fun c hc => h c (List.mem_cons_of_mem _ hc))
    have hb := h b (by simp)
    have e : b.block.take N = b.block := List.take_of_length_le (by omega)
    refine ⟨b.block.map (fun x : Nat => (x : Int) + 1) ++ (b.offset : Int) :: a, ?_, ?_, ?_⟩
    · rw [offsetsToArray, if_neg (by omega), ha, e]
      rfl
    · simp [la, hb, Nat.add_mul]
      omega
    · have hl : (b.block.map (fun x : Nat => (x : Int) + 1)).length = N := by simp [hb]
      rw [List.length_cons, arrayToOffsets]
      have h1 : (b.block.map (fun x : Nat => (x : Int) + 1) ++ (b.offset : Int) :: a).take N = b.block.map (fun x : Nat => (x : Int) + 1) := by
        rw [← hl, List.take_left]
      have h2 : (b.block.map (fun x : Nat => (x : Int) + 1) ++ (b.offset : Int) :: a).getD N 0 = b.offset := by
        rw [List.getD_eq_getElem?_getD, List.getElem?_append_right (by omega), hl]
        simp
      have h3 : (b.block.map (fun x : Nat => (x : Int) + 1) ++ (b.offset : Int) :: a).drop (N + 1) = a := by
        rw [← hl, ← List.drop_drop, List.drop_left]
        rfl
      rw [h1, h2, h3, ra]
      congr 1
      cases b
      simp [Function.comp_def]

/-- Storage which survives: dense, or block-sparse with as many numbers in each block. -/
def Sto.Plain : Sto R C → Prop
  | .real _ => True
  | .cplx _ => True
  | .qreal o _ => ∃ N, ∀ b ∈ o, b.block.length = N
  | .qcplx o _ => ∃ N, ∀ b ∈ o, b.block.length = N
  | .other => False

theorem qNode_ok (t : String) {o : List BlOf} (h : ∃ N, ∀ b ∈ o, b.block.length = N) (d : Node R C) :
    ∃ a, offsetsToArray (ndims o) o = .ok a ∧ a.length / (ndims o + 1) = o.length ∧ arrayToOffsets (ndims o) o.length a = o ∧
      qNode t o d = .ok (put (put (put (newGroup t) (.fixed "ndims") (.long (ndims o))) (.fixed "offsets") (.longs a)) (.fixed "data") d).node := by
  obtain ⟨N, hN⟩ := h
  have hn : ∀ b ∈ o, b.block.length = ndims o := by
    cases o with
    | nil => simp
    | cons c o => intro b hb; rw [hN b hb, ndims, hN c (by simp)]
  obtain ⟨a, ha, la, ra⟩ := offsets_back (ndims o) o hn
  exact ⟨a, ha, by rw [la, Nat.mul_div_cancel _ (by omega)], ra, by rw [qNode, ha]; rfl⟩

theorem readBlocks_of {G : Group R C} {N : Nat} {a : List Int} {o : List BlOf} (h1 : find G (.fixed "ndims") = .ok (.long N))
    (h2 : find G (.fixed "offsets") = .ok (.longs a)) (h3 : a.length / (N + 1) = o.length) (h4 : arrayToOffsets N o.length a = o) : readBlocks [] G = .ok o := by
  unfold readBlocks
  simp only [getLong, getLongs, h1, h2, Res.bind]
  rw [if_neg (by omega), Int.toNat_natCast, h3, h4]
  rfl

theorem sto_back {s : Sto R C} (p : s.Plain) : ∃ x : Group R C, stoNode s = .ok x.node ∧ ∀ g k, find g k = .ok x.node → readSto g k = .ok s := by
  cases s with
  | real l =>
    refine ⟨_, rfl, fun g k h => ?_⟩
    rw [readSto, openGroup_of_find h]
    simp [Res.bind, getAttr, attrs_put, newGroup, getReals, find_put_self]
  | cplx l =>
    refine ⟨_, rfl, fun g k h => ?_⟩
    rw [readSto, openGroup_of_find h]
    simp [Res.bind, getAttr, attrs_put, newGroup, getCplxs, find_put_self]
  | qreal o l =>
    obtain ⟨a, ha, la, ra, e⟩ := qNode_ok (R := R) (C := C) "BlockSparse{Float64}" p (.reals l)
    refine ⟨_, e, fun g k h => ?_⟩
    rw [readSto, openGroup_of_find h]
    have hb := readBlocks_of (G := put (put (put (newGroup "BlockSparse{Float64}" : Group R C) (.fixed "ndims") (.long (ndims o))) (.fixed "offsets") (.longs a))
      (.fixed "data") (.reals l)) (by simp [find_put_self, find_put_ne]) (by simp [find_put_self, find_put_ne]) la ra
    have hg : getAttr (put (put (put (newGroup "BlockSparse{Float64}" : Group R C) (.fixed "ndims") (.long (ndims o))) (.fixed "offsets") (.longs a))
      (.fixed "data") (.reals l)) "type" = .ok "BlockSparse{Float64}" := rfl
    simp [Res.bind, hg, hb, getReals, find_put_self]
  | qcplx o l =>
    obtain ⟨a, ha, la, ra, e⟩ := qNode_ok (R := R) (C := C) "BlockSparse{ComplexF64}" p (.cplxs l)
    refine ⟨_, e, fun g k h => ?_⟩
    rw [readSto, openGroup_of_find h]
    have hb := readBlocks_of (G := put (put (put (newGroup "BlockSparse{ComplexF64}" : Group R C) (.fixed "ndims") (.long (ndims o))) (.fixed "offsets") (.longs a))
      (.fixed "data") (.cplxs l)) (by simp [find_put_self, find_put_ne]) (by simp [find_put_self, find_put_ne]) la ra
    have hg : getAttr (put (put (put (newGroup "BlockSparse{ComplexF64}" : Group R C) (.fixed "ndims") (.long (ndims o))) (.fixed "offsets") (.longs a))
      (.fixed "data") (.cplxs l)) "type" = .ok "BlockSparse{ComplexF64}" := rfl
    simp [Res.bind, hg, hb, getCplxs, find_put_self]
  | other => exact p.elim

/-- A tensor as read compared with the one written: the same indices in the same order and the same storage. -/
structure SameT (T U : Ten R C) : Prop where
  is : List.Forall₂ Same T.is U.is
  sto : U.sto = T.sto

/-- A tensor which survives. -/
structure PlainT (T : Ten R C) : Prop where
  is : ∀ i ∈ T.is, Plain i
  sto : ∃ s, T.sto = some s ∧ s.Plain

theorem ten_back {T : Ten R C} (p : PlainT T) : ∃ x, tenNode T = .ok x ∧ ∀ g k, find g k = .ok x → ∃ U, readTen g k = .ok U ∧ SameT T U := by
  obtain ⟨s, hs, ps⟩ := p.sto
  obtain ⟨x, hx, rx⟩ := sto_back ps
  refine ⟨(put (put (newGroup "ITensor") (.fixed "inds") (indsNode T.is)) (.fixed "storage") x.node).node, by simp only [tenNode, hs, hx, Res.bind], fun g k h => ?_⟩
  obtain ⟨js, hj, sj⟩ := readInds_find (g := put (put (newGroup "ITensor") (.fixed "inds") (indsNode T.is)) (.fixed "storage") x.node) (k := .fixed "inds")
    (by simp [find_put_self, find_put_ne]) p.is
  refine ⟨⟨js, some s⟩, ?_, ⟨sj, hs.symm⟩⟩
  have hh : has (put (put (newGroup "ITensor") (.fixed "inds") (indsNode T.is)) (.fixed "storage") x.node) (.fixed "storage") = true := by
    simp [has, put]
  have hg : checkType (put (put (newGroup "ITensor") (.fixed "inds") (indsNode T.is)) (.fixed "storage") x.node) "ITensor" = .ok () := rfl
  unfold readTen
  rw [openGroup_of_find h]
  simp only [Res.bind, hg, hj, hh, if_true, rx _ _ (find_put_self _ _ _)]

theorem tenNodes_ok : ∀ (l : List (Ten R C)), (∀ T ∈ l, PlainT T) → ∃ x, tenNodes l = .ok x ∧ x.length = l.length ∧
    ∀ (m : Nat) (hm : m < l.length) (hx : m < x.length), ∀ g k, find g k = .ok x[m] → ∃ U, readTen g k = .ok U ∧ SameT l[m] U
  | [], _ => ⟨[], rfl, rfl, fun m hm => absurd hm (by simp)⟩
  | T :: l, h => by
    obtain ⟨a, ha, ra⟩ := ten_back (h T (by simp))
    obtain ⟨x, hx, lx, rx⟩ := tenNodes_ok l (fun U hU => h U (List.mem_cons_of_mem _ hU))
    refine ⟨a :: x, by rw [tenNodes, ha]; simp only [Res.bind]; rw [hx], by simp [lx], fun m => ?_⟩
    cases m with
    | zero => intro _ _; exact ra
    | succ m => intro hm hx; exact rx m (by simpa using hm) (by simpa using hx)

/-- **C107, for an Index.** An Index written under a name, whatever the file held before and whatever is then written under other names, is read back: the same number,
dimension, direction, tags, prime level and sectors. Without quantum numbers or with those of four names; for fewer see `C107_qn_counterexample`. -/
theorem C107_index_partial (g : Group R C) (k : Key) {i : Index} (p : Plain i) (later : List (Key × Node R C)) (hl : ∀ q ∈ later, q.1 ≠ k) :
    ∃ j, readIndex (later.foldl (fun g q => put g q.1 q.2) (put g k (indexNode i))) k = .ok j ∧ Same i j := by
  refine readIndex_find ?_ p
  have : ∀ (later : List (Key × Node R C)) (G : Group R C), (∀ q ∈ later, q.1 ≠ k) → find (later.foldl (fun g q => put g q.1 q.2) G) k = find G k := by
    intro later
    induction later with
    | nil => intro _ _; rfl
    | cons q l ih => intro G h; rw [List.foldl_cons, ih _ (fun r hr => h r (List.mem_cons_of_mem _ hr)), find_put_ne _ _ (h q (by simp))]
  rw [this _ _ hl, find_put_self]

/-- **C107, for a tensor.** Writing a dense or block-sparse tensor does not fail, and reading gives the same indices in the same order and the same storage, blocks, offsets and
elements. -/
theorem C107_tensor_partial (g : Group R C) (k : Key) {T : Ten R C} (p : PlainT T) :
    ∃ x, tenNode T = .ok x ∧ ∃ U, readTen (put g k x) k = .ok U ∧ SameT T U := by
  obtain ⟨x, hx, rx⟩ := ten_back p
  exact ⟨x, hx, rx _ _ (find_put_self _ _ _)⟩

/-- **C107, for a matrix product state or operator.** Read back are as many tensors, each with the same indices and storage, and the same limits. The tensors at positions 0
and N+1 are not written; see `C107_edges_counterexample`. -/
theorem C107_train_partial (t : String) (g : Group R C) (k : Key) {M : Train R C} (p : ∀ T ∈ M.sites, PlainT T) :
    ∃ x, trainNode t M = .ok x ∧ ∃ M', readTrain t (put g k x) k = .ok M' ∧ List.Forall₂ SameT M.sites M'.sites ∧ M'.llim = M.llim ∧ M'.rlim = M.rlim := by
  obtain ⟨x, hx, lx, rx⟩ := tenNodes_ok M.sites p
  refine ⟨_, by rw [trainNode, hx]; rfl, ?_⟩
  set G := putAll (t ++ "[%d]") 1 x (put (put (put (newGroup t : Group R C) (.fixed "length") (.long M.sites.length)) (.fixed "rlim") (.long M.rlim))
    (.fixed "llim") (.long M.llim)) with hG
  have hf : ∀ s, find G (.fixed s) = find (put (put (put (newGroup t : Group R C) (.fixed "length") (.long M.sites.length)) (.fixed "rlim") (.long M.rlim))
    (.fixed "llim") (.long M.llim)) (.fixed s) := fun s => find_putAll_ne _ _ _ _ _ (by simp)
  have h1 : find G (.fixed "length") = .ok (.long M.sites.length) := by rw [hf]; simp [find_put_self, find_put_ne]
  have h2 : find G (.fixed "rlim") = .ok (.long M.rlim) := by rw [hf]; simp [find_put_self, find_put_ne]
  have h3 : find G (.fixed "llim") = .ok (.long M.llim) := by rw [hf]; simp [find_put_self]
  have ht : checkType G t = .ok () := by simp [checkType, getAttr, hG, attrs_putAll, attrs_put, newGroup, Res.bind]
  obtain ⟨A, hA, sA⟩ := readAll_ok (f := fun m => readTen G (.num (t ++ "[%d]") m)) SameT M.sites 1
    (fun m hm => rx m hm (by omega) _ _ (find_putAll _ _ _ _ m (by omega)))
  refine ⟨⟨A, none, none, M.llim, M.rlim⟩, ?_, sA, rfl, rfl⟩
  unfold readTrain
  rw [openGroup_of_find (find_put_self _ _ _)]
  simp only [Res.bind, ht, getLong, h1, h2, h3]
  rw [if_neg (by omega), Int.toNat_natCast, hA]

/-! ## Cases which meet the hypotheses -/

/-- The tags "Site,n" with prime level 1. -/
theorem exTags_reach : ∃ t : TagSet, TagSet.Reach t ∧ Verif.TagSet.Tag.ofBytes [83, 105, 116, 101] ∈ t.live ∧ (∀ u ∈ t.live, TagSet.PlainName u) ∧ t.live.length = 2 ∧ t.plev = 1 := by
  refine ⟨_, TagSet.Reach.step (op := .setPrime 1) (TagSet.Reach.step (op := .addTag (Verif.TagSet.Tag.ofBytes [83, 105, 116, 101]))
    (TagSet.Reach.step (op := .addTag (Verif.TagSet.Tag.ofBytes [110])) TagSet.Reach.init (by simp [TagSet.Op.args]) rfl)
    (by simp [TagSet.Op.args]) rfl) (by simp [TagSet.Op.args]) rfl, ?_, ?_, ?_, ?_⟩
  · decide +kernel
  · unfold TagSet.PlainName
    decide +kernel
  · decide +kernel
  · decide +kernel

/-- A quantum number with the names "A", "B", "C" and "D", the second a parity. -/
def exQ (n : Int) : Verif.QN.QN := [⟨Verif.QN.nm 65, n, 1⟩, ⟨Verif.QN.nm 66, 1, 2⟩, ⟨Verif.QN.nm 67, 0, 1⟩, ⟨Verif.QN.nm 68, -2, 1⟩]

/-- Indices of dimension 3, one without quantum numbers and one with two sectors, and a dense and a block-sparse tensor with them. -/
example : ∃ i j : Index, Plain i ∧ Plain j ∧ i.qns = [] ∧ j.qns.length = 2 ∧ i.tags.live.length = 2 ∧ i.tags.plev = 1 ∧ i.dir = 1 ∧ j.dir = -1 ∧
    PlainT (⟨[i], some (.real [1, 2, 3])⟩ : Ten Int Int) ∧ PlainT (⟨[j, j], some (.qcplx [⟨[0, 0], 0⟩, ⟨[1, 1], 4⟩] [1, 2, 3, 4, 5])⟩ : Ten Int Int) := by
  obtain ⟨t, ht, _, pt, lt, et⟩ := exTags_reach
  have pi : Plain ⟨7, 3, 1, t, []⟩ := ⟨ht, pt, .inr rfl, by simp⟩
  have pj : Plain ⟨8, 3, -1, t, [(exQ 0, 2), (exQ 1, 1)]⟩ := by
    refine ⟨ht, pt, .inl rfl, ?_⟩
    intro q hq
    refine ⟨fun n => if n = Verif.QN.nm 66 then 2 else 1, q.1, ?_⟩
    rcases List.mem_cons.1 hq with rfl | hq
    · exact ⟨⟨by decide, by decide, by unfold Verif.QN.NSorted; decide, by decide, by decide, by decide⟩, by decide⟩
    · rw [List.mem_singleton.1 hq]
      exact ⟨⟨by decide, by decide, by unfold Verif.QN.NSorted; decide, by decide, by decide, by decide⟩, by decide⟩
  exact ⟨_, _, pi, pj, rfl, rfl, lt, et, rfl, rfl, ⟨by simpa using pi, _, rfl, trivial⟩, ⟨by simpa using pj, _, rfl, 2, by simp⟩⟩

/-! ## What does not survive -/

/-- The quantum number `QN({"Sz",n})`. -/
def exSz (n : Int) : Verif.QN.QN := [⟨Verif.TagSet.Tag.ofBytes [83, 122], n, 1⟩, Verif.QN.QNum.none, Verif.QN.QNum.none, Verif.QN.QNum.none]

/-- An Index with one sector. -/
def exI (q : Verif.QN.QN) : Index := ⟨7, 1, 1, TagSet.default.setPrime 0, [(q, 1)]⟩

/-- What is read when the Index alone is written. -/
def there (i : Index) : Res Index := readIndex (put (⟨[], []⟩ : Group Int Int) (.fixed "i") (indexNode i)) (.fixed "i")

/-- **C107 is false for quantum numbers with fewer than four names**, as all quantum numbers of the site sets of the library have. An Index with the sector `QN({"Sz",1})` is read as an Index that is
equal to it (`operator==` looks at number and tags only), but the flux of a block of a tensor with this Index, {"Sz",1} before, is zero afterwards, because the quantum number read
has nothing in the first place, where adding stops. With a quantum number without a name, the Index can be written but not read. -/
theorem C107_qn_counterexample : (∃ j, there (exI (exSz 1)) = .ok j ∧ (exI (exSz 1)).eq j = true ∧
      blockQN [exI (exSz 1)] [0] Verif.QN.QN.default = .ok (exSz 1) ∧ blockQN [j] [0] Verif.QN.QN.default = .ok Verif.QN.QN.default ∧
      (exSz 1).eq Verif.QN.QN.default = false) ∧
    there (exI [⟨.empty, 3, 1⟩, Verif.QN.QNum.none, Verif.QN.QNum.none, Verif.QN.QNum.none]) = .throw := by
  refine ⟨⟨⟨7, 1, 1, TagSet.default.setPrime 0, [([Verif.QN.QNum.none, ⟨Verif.TagSet.Tag.ofBytes [83, 122], 1, 1⟩, ⟨Verif.TagSet.Tag.ofBytes [83, 122], 1, 1⟩,
    ⟨Verif.TagSet.Tag.ofBytes [83, 122], 1, 1⟩], 1)]⟩, ?_, ?_, ?_, ?_, ?_⟩, ?_⟩
  all_goals decide +kernel

/-- **C107 is false for other storage.** A tensor with diagonal or scalar storage, such as delta(i,j) or ITensor(2.), cannot be written, nor a tensor not allocated, and then
neither can a state or operator which holds one. -/
theorem C107_storage_counterexample (is : IndexSet) (l m : List (Ten R C)) (a b : Option (Ten R C)) (x y : Int) (t : String) (hl : ∀ T ∈ l, PlainT T) :
    tenNode (⟨is, some .other⟩ : Ten R C) = .throw ∧ tenNode (⟨is, none⟩ : Ten R C) = .throw ∧
      trainNode t ⟨l ++ ⟨is, some .other⟩ :: m, a, b, x, y⟩ = .throw ∧ trainNode t ⟨l ++ ⟨is, none⟩ :: m, a, b, x, y⟩ = .throw := by
  have h1 : tenNode (⟨is, some .other⟩ : Ten R C) = .throw := rfl
  have h2 : tenNode (⟨is, none⟩ : Ten R C) = .throw := rfl
  have h : ∀ T : Ten R C, tenNode T = .throw → tenNodes (l ++ T :: m) = .throw := by
    intro T hT
    induction l with
    | nil => rw [List.nil_append, tenNodes, hT]; rfl
    | cons U l ih =>
      obtain ⟨z, hz, _⟩ := ten_back (hl U (by simp))
      rw [List.cons_append, tenNodes, hz]
      simp only [Res.bind]
      rw [ih (fun V hV => hl V (List.mem_cons_of_mem _ hV))]
  exact ⟨h1, h2, by rw [trainNode, h _ h1]; rfl, by rw [trainNode, h _ h2]; rfl⟩

/-- **C107 is false for the tensors at the edges.** The operator made by `toMPO` for an infinite system keeps its edge vectors at positions 0 and N+1; written and read they are
not there, without an error. -/
theorem C107_edges_counterexample : ∃ M M' : Train Int Int, (∀ T ∈ M.sites, PlainT T) ∧ M.first.isSome = true ∧ M.last.isSome = true ∧
    ∃ x, trainNode "MPO" M = .ok x ∧ readTrain "MPO" (put ⟨[], []⟩ (.fixed "H") x) (.fixed "H") = .ok M' ∧ M'.sites = M.sites ∧ M'.first = none ∧ M'.last = none := by
  refine ⟨⟨[⟨[], some (.real [1])⟩], some ⟨[], some (.real [1])⟩, some ⟨[], some (.real [1])⟩, 0, 2⟩, ⟨[⟨[], some (.real [1])⟩], none, none, 0, 2⟩, ?_, rfl, rfl, _, rfl, ?_,
    rfl, rfl, rfl⟩
  · intro T hT
    rw [List.mem_singleton.1 hT]
    exact ⟨by simp, _, rfl, trivial⟩
  · rfl

/-- **C107 is false when reading block-sparse storage into an object which already holds blocks of lower order**: an array is made from the old blocks with the order of the new
ones, which reads past the end of each. -/
theorem C107_reuse_counterexample : ∃ (o : List BlOf) (x : Group Int Int), qNode "BlockSparse{Float64}" o (.reals [1]) = .ok x.node ∧
    readBlocks [] x = .ok o ∧ readBlocks [⟨[0], 0⟩] x = .ub := by
  refine ⟨[⟨[0, 0], 0⟩], _, rfl, ?_, ?_⟩
  all_goals decide +kernel

end Verif.Hdf5
