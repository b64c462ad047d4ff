import Verif.Util.Mpi
import Mathlib.Tactic.Ring
import Mathlib.Data.List.GetD
import Mathlib.Algebra.BigOperators.Group.List.Basic

/-!
# C111: every process gets its part, in every order of events
-/

namespace Verif.Mpi

/-- From the state `s`, with the messages `f` sent or still to be sent, the receiver gets `out` and takes all messages. -/
inductive Leads (B : Nat) (out : List Byte) : RState → (Chan → List Msg) → Prop
  | done : Leads B out (.done out) fun _ => []
  | step (s : RState) (f : Chan → List Msg) (c : Chan) (m : Msg) (r : List Msg) :
    want s = some c → f c = m :: r → Leads B out (recv B s m) (Function.update f c r) → Leads B out s f

theorem Leads.inv {B : Nat} {out : List Byte} {s : RState} {f : Chan → List Msg} (h : Leads B out s f) {c : Chan} (hc : want s = some c) :
    ∃ m r, f c = m :: r ∧ Leads B out (recv B s m) (Function.update f c r) := by
  cases h with
  | done => simp [want] at hc
  | step _ _ c' m r h1 h2 h3 =>
    rw [h1] at hc
    cases hc
    exact ⟨m, r, h2, h3⟩

theorem Leads.fin {B : Nat} {out : List Byte} {s : RState} {f : Chan → List Msg} (h : Leads B out s f) (hs : want s = none) : s = .done out ∧ f = fun _ => [] := by
  cases h with
  | done => exact ⟨rfl, rfl⟩
  | step _ _ c' m r h1 h2 h3 => rw [h1] at hs; cases hs

/-- The messages of a list with a tag. -/
def onChan (l : List (Chan × Msg)) (c : Chan) : List Msg := (l.filter fun x => x.1 = c).map Prod.snd

theorem onChan_cons (c c' : Chan) (m : Msg) (l : List (Chan × Msg)) : onChan ((c, m) :: l) c' = if c = c' then m :: onChan l c' else onChan l c' := by
  unfold onChan
  by_cases h : c = c' <;> simp [h]

theorem update_onChan (c : Chan) (m : Msg) (l : List (Chan × Msg)) : Function.update (onChan ((c, m) :: l)) c (onChan l c) = onChan l := by
  funext c'
  by_cases h : c' = c
  · subst h; simp
  · rw [Function.update_of_ne h, onChan_cons, if_neg (Ne.symm h)]

/-- Messages in the order in which they are wanted. -/
theorem Leads.cons {B : Nat} {out : List Byte} {s : RState} {c : Chan} {m : Msg} {l : List (Chan × Msg)} (hc : want s = some c)
    (h : Leads B out (recv B s m) (onChan l)) : Leads B out s (onChan ((c, m) :: l)) := by
  refine .step s _ c m (onChan l c) hc (by simp [onChan_cons]) ?_
  rw [update_onChan]
  exact h

theorem chunks_leads (B : Nat) (rem : Nat) (hr : rem ≤ B) : ∀ (q : Nat) (d buf out : List Byte), buf.length = B → d.length = q * B + rem →
    Leads B (out ++ d) (.chunk q rem buf out) (onChan (chunks B rem q d)) := by
  intro q
  induction q with
  | zero =>
    intro d buf out hb hd
    unfold chunks
    refine Leads.cons rfl ?_
    have hd' : d.length = rem := by omega
    have : d.take rem = d := List.take_of_length_le (by omega)
    rw [this]
    have e : recv B (.chunk 0 rem buf out) (.data d) = .done (out ++ d) := by
      have h0 : recvInto rem buf d = some (d ++ buf.drop d.length) := by
        unfold recvInto
        rw [if_neg (by omega)]
      simp only [recv, h0]
      rw [← hd', List.take_left']
      rfl
    rw [e]
    exact .done
  | succ q ih =>
    intro d buf out hb hd
    unfold chunks
    refine Leads.cons rfl ?_
    have hl : (d.take B).length = B := by
      rw [List.length_take]
      have : B ≤ d.length := by rw [hd, Nat.succ_mul]; omega
      omega
    have e : recv B (.chunk (q + 1) rem buf out) (.data (d.take B)) = .chunk q rem (d.take B) (out ++ d.take B) := by
      have h0 : recvInto B buf (d.take B) = some (d.take B) := by
        unfold recvInto
        rw [if_neg (by omega), hl, List.drop_of_length_le (by omega), List.append_nil]
      simp only [recv, h0]
      rw [List.take_of_length_le (l := d.take B) (by omega)]
    rw [e]
    have := ih (d.drop B) (d.take B) (out ++ d.take B) hl (by rw [List.length_drop, hd, Nat.succ_mul]; omega)
    rwa [List.append_assoc, List.take_append_drop] at this

/-- What is sent is received. -/
theorem sends_leads (B : Nat) (hB : 0 < B) (d buf : List Byte) (hb : buf.length = B) : Leads B d (.waitFlag buf) (onChan (sends B d)) := by
  unfold sends
  refine Leads.cons rfl (Leads.cons rfl ?_)
  have := chunks_leads B (d.length % B) (Nat.mod_lt _ hB).le (d.length / B) d buf [] hb (by rw [Nat.mul_comm]; exact (Nat.div_add_mod _ _).symm)
  simpa [recv] using this

/-! ## Pieces -/

theorem sum_blockSizes (n k : Nat) (hk : 0 < k) : (blockSizes n k).sum = n := by
  have aux : ∀ (m r a : Nat), ((List.range m).map fun i => if i < r then a + 1 else a).sum = m * a + min m r := by
    intro m r a
    induction m with
    | zero => simp
    | succ m ih =>
      rw [List.range_succ, List.map_append, List.sum_append, ih, Nat.succ_mul]
      simp only [List.map_cons, List.map_nil, List.sum_cons, List.sum_nil]
      split <;> omega
  unfold blockSizes
  rw [aux, Nat.min_eq_right (Nat.mod_lt n hk).le]
  exact Nat.div_add_mod n k

theorem length_blockSizes (n k : Nat) : (blockSizes n k).length = k := by simp [blockSizes]

theorem length_cut {α : Type*} : ∀ (l : List Nat) (v : List α), (cut v l).length = l.length
  | [], _ => rfl
  | s :: ss, v => by simp [cut, length_cut ss]

theorem flatten_cut {α : Type*} : ∀ (l : List Nat) (v : List α), l.sum = v.length → (cut v l).flatten = v
  | [], v, h => by
    have : v = [] := List.length_eq_zero_iff.1 (by simpa using h.symm)
    simp [cut, this]
  | s :: ss, v, h => by
    rw [List.sum_cons] at h
    rw [cut, List.flatten_cons, flatten_cut ss (v.drop s) (by rw [List.length_drop]; omega), List.take_append_drop]

theorem map_length_cut {α : Type*} : ∀ (l : List Nat) (v : List α), l.sum = v.length → (cut v l).map List.length = l
  | [], _, _ => rfl
  | s :: ss, v, h => by
    rw [List.sum_cons] at h
    rw [cut, List.map_cons, map_length_cut ss (v.drop s) (by rw [List.length_drop]; omega), List.length_take, Nat.min_eq_left (by omega)]

/-- The piece of process `i`. -/
def piece {α : Type*} (k : Nat) (v : List α) (i : Nat) : List α := (cut v (blockSizes v.length k)).getD i []

/-! ## Scatter -/

/-- What is in the queue to process `i`, and what will be put there. -/
def Net.future (N : Net) (i : Nat) (c : Chan) : List Msg := N.q i c ++ onChan ((N.prog.filter fun x => x.1 = i).map Prod.snd) c

theorem future_send (i : Nat) (c : Chan) (m : Msg) (p : List (Nat × Chan × Msg)) (q : Nat → Chan → List Msg) (st : Nat → RState) (j : Nat) :
    Net.future ⟨p, Function.update q i (Function.update (q i) c (q i c ++ [m])), st⟩ j = Net.future ⟨(i, c, m) :: p, q, st⟩ j := by
  funext c'
  unfold Net.future
  by_cases hj : j = i
  · subst hj
    simp only [Function.update_self, List.filter_cons, decide_true, if_true, List.map_cons, onChan_cons]
    by_cases hc : c' = c
    · subst hc
      simp
    · rw [Function.update_of_ne hc, if_neg (Ne.symm hc)]
  · simp only [Function.update_of_ne hj]
    simp [Ne.symm hj]

/-- Every process is on the way to its part. -/
def Good (B : Nat) (d : Nat → List Byte) (P : Nat → Prop) (N : Net) : Prop := ∀ i, (P i → Leads B (d i) (N.st i) (N.future i)) ∧ (¬P i → N.future i = fun _ => [])

theorem Good.step {B : Nat} {d : Nat → List Byte} {P : Nat → Prop} {N N' : Net} (h : Good B d P N) (hs : Step B N N') : Good B d P N' := by
  cases hs with
  | send i c m p q st =>
    intro j
    rw [future_send]
    exact h j
  | recv i c m r p q st h1 h2 =>
    intro j
    by_cases hj : j = i
    · subst hj
      have hf : Net.future ⟨p, Function.update q j (Function.update (q j) c r), Function.update st j (Mpi.recv B (st j) m)⟩ j =
          Function.update (Net.future ⟨p, q, st⟩ j) c (r ++ onChan ((p.filter fun x => x.1 = j).map Prod.snd) c) := by
        funext c'
        unfold Net.future
        by_cases hc : c' = c
        · subst hc; simp
        · simp [Function.update_of_ne hc]
      have hh : Net.future ⟨p, q, st⟩ j c = m :: (r ++ onChan ((p.filter fun x => x.1 = j).map Prod.snd) c) := by
        unfold Net.future
        simp [h2]
      refine ⟨fun hP => ?_, fun hP => ?_⟩
      · obtain ⟨m', r', e1, e2⟩ := ((h j).1 hP).inv h1
        rw [hh] at e1
        cases e1
        rw [hf]
        simpa using e2
      · have := (h j).2 hP
        rw [this] at hh
        cases hh
    · have hf : Net.future ⟨p, Function.update q i (Function.update (q i) c r), Function.update st i (Mpi.recv B (st i) m)⟩ j = Net.future ⟨p, q, st⟩ j := by
        funext c'
        unfold Net.future
        simp only [Function.update_of_ne hj]
      rw [hf]
      have e : Function.update st i (Mpi.recv B (st i) m) j = st j := Function.update_of_ne hj _ _
      simp only [e]
      exact h j

theorem Good.steps {B : Nat} {d : Nat → List Byte} {P : Nat → Prop} {N N' : Net} (h : Good B d P N) (hs : Relation.ReflTransGen (Step B) N N') : Good B d P N' := by
  induction hs with
  | refl => exact h
  | tail _ h2 ih => exact ih.step h2

/-- While a process has not got its part, something can happen. -/
theorem Good.progress {B : Nat} {d : Nat → List Byte} {P : Nat → Prop} {N : Net} (h : Good B d P N) (hn : ∀ N', ¬Step B N N') :
    N.prog = [] ∧ ∀ i, P i → N.st i = .done (d i) := by
  obtain ⟨p, q, st⟩ := N
  have hp : p = [] := by
    cases p with
    | nil => rfl
    | cons x p =>
      obtain ⟨i, c, m⟩ := x
      exact absurd (Step.send i c m p q st) (hn _)
  subst hp
  refine ⟨rfl, fun i hi => ?_⟩
  have hl := (h i).1 hi
  cases hw : want (st i) with
  | none => exact (hl.fin hw).1
  | some c =>
    obtain ⟨m, r, e, -⟩ := hl.inv hw
    have : q i c = m :: r := by simpa [Net.future, onChan] using e
    exact absurd (Step.recv i c m r [] q st hw this) (hn _)

theorem sum_range_succ_at (g g' : Nat → Nat) (i : Nat) (hne : ∀ j, j ≠ i → g' j = g j) (hi : g' i = g i + 1) :
    ∀ k, ((List.range k).map g').sum = ((List.range k).map g).sum + if i < k then 1 else 0 := by
  intro k
  induction k with
  | zero => simp
  | succ k ih =>
    rw [List.range_succ, List.map_append, List.map_append, List.sum_append, List.sum_append, ih]
    simp only [List.map_cons, List.map_nil, List.sum_cons, List.sum_nil]
    by_cases h : k = i
    · subst h
      rw [hi]
      simp
      omega
    · rw [hne k h]
      split <;> split <;> omega

/-- The messages in three queues. -/
def qlen (f : Chan → List Msg) : Nat := (f .flag).length + (f .size).length + (f .data).length

theorem qlen_update (f : Chan → List Msg) (c : Chan) (r : List Msg) : qlen (Function.update f c r) + (f c).length = qlen f + r.length := by
  cases c <;> simp [qlen] <;> omega

/-- How much is still to be done for the processes before `k`. -/
def Net.todo (k : Nat) (N : Net) : Nat := 2 * N.prog.length + ((List.range k).map fun i => qlen (N.q i)).sum

theorem Good.todo_lt {B k : Nat} {d : Nat → List Byte} {P : Nat → Prop} (hP : ∀ i, P i → i < k) {N N' : Net} (h : Good B d P N) (hs : Step B N N') :
    N'.todo k < N.todo k := by
  cases hs with
  | send i c m p q st =>
    have e := sum_range_succ_at (fun j => qlen (q j)) (fun j => qlen (Function.update q i (Function.update (q i) c (q i c ++ [m])) j)) i
      (fun j hj => by simp only [Function.update_of_ne hj]) (by
        simp only [Function.update_self]
        have := qlen_update (q i) c (q i c ++ [m])
        simp only [List.length_append, List.length_cons, List.length_nil] at this
        omega) k
    simp only [Net.todo, e, List.length_cons]
    split <;> omega
  | recv i c m r p q st h1 h2 =>
    have hi : i < k := by
      by_contra hc
      have := (h i).2 fun hh => hc (hP i hh)
      have := congrFun this c
      simp [Net.future, h2] at this
    have e := sum_range_succ_at (fun j => qlen (Function.update q i (Function.update (q i) c r) j)) (fun j => qlen (q j)) i
      (fun j hj => by simp only [Function.update_of_ne hj]) (by
        simp only [Function.update_self]
        have := qlen_update (q i) c r
        rw [h2, List.length_cons] at this
        omega) k
    simp only [Net.todo, e, if_pos hi]
    omega

/-- The parts are sent to their processes. -/
theorem filter_flatMap_sends {α : Type*} (B : Nat) (enc : List α → List Byte) (i : Nat) : ∀ (l : List (Nat × List α)), (l.map Prod.fst).Nodup →
    ((l.flatMap fun x => (sends B (enc x.2)).map fun y => (x.1, y)).filter fun x => x.1 = i).map Prod.snd =
      match l.find? fun x => x.1 = i with
      | some x => sends B (enc x.2)
      | none => []
  | [], _ => rfl
  | x :: l, h => by
    rw [List.map_cons, List.nodup_cons] at h
    rw [List.flatMap_cons, List.filter_append, List.map_append, filter_flatMap_sends B enc i l h.2]
    by_cases hx : x.1 = i
    · have hn : l.find? (fun x => decide (x.1 = i)) = none := by
        rw [List.find?_eq_none]
        intro y hy hy'
        exact h.1 (List.mem_map.2 ⟨y, hy, by rw [hx]; simpa using hy'⟩)
      rw [hn, List.find?_cons_of_pos (by simpa using hx)]
      simp only [List.append_nil]
      rw [List.filter_eq_self.2 (by rintro _ ha; obtain ⟨_, _, rfl⟩ := List.mem_map.1 ha; simpa using hx), List.map_map]
      simp [Function.comp_def]
    · rw [List.find?_cons_of_neg (by simpa using hx)]
      have : ((sends B (enc x.2)).map fun y => (x.1, y)).filter (fun x => decide (x.1 = i)) = [] := by
        rw [List.filter_eq_nil_iff]
        rintro _ ha
        obtain ⟨_, _, rfl⟩ := List.mem_map.1 ha
        simpa using hx
      rw [this]
      simp

theorem find?_of_mem {α : Type*} (i : Nat) (a : α) : ∀ (l : List (Nat × α)), (l.map Prod.fst).Nodup → (i, a) ∈ l → l.find? (fun x => x.1 = i) = some (i, a)
  | [], _, h => by cases h
  | x :: l, hn, h => by
    rw [List.map_cons, List.nodup_cons] at hn
    rcases List.mem_cons.1 h with rfl | h
    · simp
    · have : x.1 ≠ i := fun e => hn.1 (List.mem_map.2 ⟨_, h, e.symm⟩)
      rw [List.find?_cons_of_neg (by simpa using this)]
      exact find?_of_mem i a l hn.2 h

/-- The start of `scatterVector` is good. -/
theorem good_scatter {α : Type*} (B k : Nat) (hB : 0 < B) (enc : List α → List Byte) (buf : Nat → List Byte) (hbuf : ∀ i, (buf i).length = B) (v : List α) :
    Good B (fun i => enc (piece k v i)) (fun i => 1 ≤ i ∧ i < k) (scatter B k enc buf v) := by
  have hlen : (cut v (blockSizes v.length k)).length = k := by rw [length_cut, length_blockSizes]
  have hkeys : (((List.range k).zip (cut v (blockSizes v.length k))).tail.map Prod.fst) = (List.range k).tail := by
    rw [List.map_tail, List.map_fst_zip (by simp [hlen])]
  have hnd : (((List.range k).zip (cut v (blockSizes v.length k))).tail.map Prod.fst).Nodup := by
    rw [hkeys]
    exact List.nodup_range.sublist (List.tail_sublist _)
  intro i
  have hf : (scatter B k enc buf v).future i = onChan (match ((List.range k).zip (cut v (blockSizes v.length k))).tail.find? fun x => x.1 = i with
      | some x => sends B (enc x.2)
      | none => []) := by
    funext c
    unfold Net.future scatter
    simp only [List.nil_append]
    rw [filter_flatMap_sends B enc i _ hnd]
  refine ⟨fun hi => ?_, fun hi => ?_⟩
  · have hm : (i, piece k v i) ∈ ((List.range k).zip (cut v (blockSizes v.length k))).tail := by
      have h1 : i - 1 < ((List.range k).zip (cut v (blockSizes v.length k))).tail.length := by
        simp [hlen]
        omega
      have h2 := List.getElem_mem h1
      have h3 : ((List.range k).zip (cut v (blockSizes v.length k))).tail[i - 1] = (i, piece k v i) := by
        have e : i - 1 + 1 = i := by omega
        rw [List.getElem_tail, List.getElem_zip]
        simp only [e, List.getElem_range, piece]
        rw [List.getD_eq_getElem _ _ (by omega)]
      rwa [h3] at h2
    rw [hf, find?_of_mem i _ _ hnd hm]
    exact sends_leads B hB _ _ (hbuf i)
  · have hn : ((List.range k).zip (cut v (blockSizes v.length k))).tail.find? (fun x => decide (x.1 = i)) = none := by
      rw [List.find?_eq_none]
      intro x hx hx'
      have hx'' : x.1 = i := by simpa using hx'
      have : i ∈ (List.range k).tail := by
        rw [← hkeys]
        exact List.mem_map.2 ⟨x, hx, hx''⟩
      obtain ⟨j, hj, e⟩ := List.getElem_of_mem this
      rw [List.getElem_tail, List.getElem_range] at e
      simp at hj
      omega
    rw [hf, hn]
    rfl

/-- **C111** (`scatterVector`, in part). With `k` processes, with buffers of the same positive size, and an encoding which can be read back, whatever the order of events: no process meets an error, a process which
has its message has exactly its piece of the vector, every step leaves less to do, and when nothing more can happen everything has been sent and every process has its piece. The pieces, one after another, are
the vector, their lengths differ by at most one and the longer ones come first.

In part because there are no `int` bounds, and because the buffers must be of the same size. Here a send never waits; see `C111_scatter_unbuffered` for sends which do. -/
theorem C111_scatter_partial {α : Type*} (B k : Nat) (hB : 0 < B) (hk : 0 < k) (enc : List α → List Byte) (dec : List Byte → List α) (hdec : ∀ v, dec (enc v) = v) (buf : Nat → List Byte)
    (hbuf : ∀ i, (buf i).length = B) (v : List α) :
    (∀ N, Relation.ReflTransGen (Step B) (scatter B k enc buf v) N →
      (∀ i, 1 ≤ i → i < k → N.st i ≠ .failed ∧ ∀ out, N.st i = .done out → dec out = piece k v i) ∧
      (∀ N', Step B N N' → N'.todo k < N.todo k) ∧
      ((∀ N', ¬Step B N N') → N.prog = [] ∧ ∀ i, 1 ≤ i → i < k → ∃ out, N.st i = .done out ∧ dec out = piece k v i)) ∧
    ((List.range k).map (piece k v)).flatten = v ∧
    ∀ i, i < k → (piece k v i).length = if i < v.length % k then v.length / k + 1 else v.length / k := by
  have hlen : (cut v (blockSizes v.length k)).length = k := by rw [length_cut, length_blockSizes]
  refine ⟨fun N hN => ?_, ?_, fun i hi => ?_⟩
  · have hg := (good_scatter B k hB enc buf hbuf v).steps hN
    refine ⟨fun i h1 h2 => ⟨fun hf => ?_, fun out ho => ?_⟩, fun N' hs => hg.todo_lt (fun i hi => hi.2) hs, fun hn => ?_⟩
    · have := (((hg i).1 ⟨h1, h2⟩).fin (by rw [hf]; rfl)).1
      rw [hf] at this
      cases this
    · have := (((hg i).1 ⟨h1, h2⟩).fin (by rw [ho]; rfl)).1
      rw [ho] at this
      cases this
      exact hdec _
    · obtain ⟨h1, h2⟩ := hg.progress hn
      exact ⟨h1, fun i hi hk => ⟨_, h2 i ⟨hi, hk⟩, hdec _⟩⟩
  · have e : (List.range k).map (piece k v) = cut v (blockSizes v.length k) := by
      apply List.ext_getElem
      · simp [hlen]
      · intro j h1 h2
        simp only [List.getElem_map, List.getElem_range, piece]
        rw [List.getD_eq_getElem _ _ h2]
    rw [e]
    exact flatten_cut _ _ (sum_blockSizes _ _ hk)
  · have e := map_length_cut _ v (sum_blockSizes v.length k hk)
    have h1 : i < (cut v (blockSizes v.length k)).length := by omega
    have e2 : ((cut v (blockSizes v.length k)).map List.length)[i]'(by simpa using h1) = (blockSizes v.length k)[i]'(by rw [length_blockSizes]; exact hi) := by
      simp only [e]
    rw [List.getElem_map] at e2
    unfold piece
    rw [List.getD_eq_getElem _ _ h1, e2]
    simp [blockSizes]

end Verif.Mpi
